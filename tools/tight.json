{
"mkTweedieLink||p = 0 rejected": [
"c01_powers"
],
"normalLogLik||halving": [
"c72_density"
],
"poissonLogLik||lgamma argument: not the Poisson density": [
"c72_density"
],
"gammaLogLik||normalisation dropped": [
"c72_density"
],
"invGaussianLogLik||pi dropped": [
"c72_density"
],
"negBinomialLogLik||sign": [
"c72_density"
],
"logZ||dispersion exponent": [
"c62_truncation_error",
"c72_density"
],
"Family.pearsonDispersion||ddof ignored": [
"c73_pearson_expectation"
],
"guessIntercept||generic link": [
"c63_no_offset"
],
"rawStart||cold start": [
"c74_not_worse_than_null"
],
"Config.choose||closed form for every family": [
"c38_auto_runs"
],
"Config.choose||explicit solver replaced": [
"c38_explicit"
],
"rawAlphaMax||ridge scale": [
"c39_ridge_start"
],
"normaliseWeights||weights_sum lost": [
"c46_restored"
],
"resolveAlphaIndex||both given accepted": [
"c42_both_rejected"
],
"pyGet||negative index wrong": [
"c42_index"
],
"scoreD2||null model": [
"c45_constant_prediction"
],
"scoreD2||unweighted mean": [
"c45_constant_prediction"
],
"Est.convert||categories not aligned": [
"c57_predict_aligned",
"c64_predict_formula"
],
"CovArgs.hasParams||expected_information ignored with cache": [
"c55_options_rejected"
],
"CovArgs.hasParams||offset ignored with cache": [
"c55_options_rejected"
],
"Est.estimate||robust argument ignored": [
"c55_options_override",
"c55_options_default"
],
"incompatible||cyclic splines accepted": [
"c58_transform_rejected",
"c58_transform_accepted"
],
"rstripSign||plus not stripped": [
"c58_base_name"
],
"FitCfg.boundsBad||equal bounds rejected": [
"c70_returns_iff"
],
"glmFit||indefinite P2 accepted": [
"c70_returns_iff"
],
"cvAlphas||path on another scale": [
"c60_paths_fit"
]
}