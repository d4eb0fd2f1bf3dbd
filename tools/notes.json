{"Family.effectiveDispersion||(spec-like)": "binomial branch of effectiveDispersion: deviance theorem excludes binomial; c72_density now pins it"}