cd /verif/lean && for f in $(find Verif -name '*.lean') Verif.lean; do mkdir -p /tmp/mut/lean/$(dirname $f); cmp -s $f /tmp/mut/lean/$f || cp $f /tmp/mut/lean/$f; done
