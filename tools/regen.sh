cd /verif/lean && (for f in $(ls Verif/Props/*.lean | sort); do echo "import $(echo ${f%.lean} | tr / .)"; done) > Verif.lean
python3 /tmp/w/manifest.py
