{
 "claims": [
  {
   "property": "C01",
   "status": "proved",
   "theorems": [
    "Verif.C01_crp_is_partition"
   ],
   "note": ""
  },
  {
   "property": "C02",
   "status": "proved",
   "theorems": [
    "Verif.C02_incorporate_unincorporate",
    "Verif.C02_unincorporate_incorporate"
   ],
   "note": ""
  },
  {
   "property": "C03",
   "status": "proved",
   "theorems": [
    "Verif.C03_tables_weights",
    "Verif.C03_tables_weights_empty",
    "Verif.C03_tables_weights_gibbs"
   ],
   "note": ""
  },
  {
   "property": "C04",
   "status": "proved",
   "theorems": [
    "Verif.C04_chain_rule_step",
    "Verif.C04_chain_rule",
    "Verif.C04_chain_rule_from_empty",
    "Verif.C04_score_first",
    "Verif.C04_exchangeable"
   ],
   "note": ""
  },
  {
   "property": "C05",
   "status": "partial",
   "theorems": [
    "Verif.C05_normalised_partial",
    "Verif.C05_total_empty",
    "Verif.C05_not_normalised_when_emptied"
   ],
   "note": "Holds for N>0. False for an emptied CRP with alpha != 1: the weight of the only table is 1 but the denominator is alpha; the counterexample is proved reachable."
  },
  {
   "property": "C06",
   "status": "proved",
   "theorems": [
    "Verif.C06_items_are_customers",
    "Verif.C06_incorporate",
    "Verif.C06_unincorporate",
    "Verif.C06_set_cluster"
   ],
   "note": ""
  },
  {
   "property": "C07",
   "status": "proved",
   "theorems": [
    "Verif.C07_product_eq",
    "Verif.C07_product_mem",
    "Verif.C07_product_length",
    "Verif.C07_product_empty_ub"
   ],
   "note": "product({}) is undefined behaviour in the code; the model has a distinct outcome for it."
  },
  {
   "property": "C08",
   "status": "proved",
   "theorems": [
    "Verif.C08_logsumexp",
    "Verif.C08_logsumexp_range",
    "Verif.C08_log_normalize",
    "Verif.C08_logsumexp_empty_ub"
   ],
   "note": "Exact real arithmetic with -inf."
  },
  {
   "property": "C09",
   "status": "proved",
   "theorems": [
    "Verif.C09_linspace",
    "Verif.C09_linspace_open",
    "Verif.C09_log_linspace",
    "Verif.C09_transition_hyperparameters"
   ],
   "note": "grids and every grid-based hyperparameter transition, for every draw"
  },
  {
   "property": "C10",
   "status": "proved",
   "theorems": [
    "Verif.C10_beta_bernoulli",
    "Verif.C10_dirichlet_categorical",
    "Verif.C10_normal",
    "Verif.C10_zero_mean_normal",
    "Verif.C10_stringcat",
    "Verif.C10_bigram",
    "Verif.C10_skellam",
    "Verif.C10_adapter_normal",
    "Verif.C10_fractional_weight_lost"
   ],
   "note": "state restored for weights +1/-1; Skellam up to entries of weight zero; BetaBernoulli with fractional weights refuted"
  },
  {
   "property": "C11",
   "status": "proved",
   "theorems": [
    "Verif.C11_beta_bernoulli",
    "Verif.C11_dirichlet_categorical",
    "Verif.C11_normal",
    "Verif.C11_zero_mean_normal",
    "Verif.C11_stringcat",
    "Verif.C11_bigram",
    "Verif.C11_skellam",
    "Verif.C11_total"
   ],
   "note": "over exact reals"
  },
  {
   "property": "C12",
   "status": "proved",
   "theorems": [
    "Verif.C12_normal",
    "Verif.C12_zero_mean_normal"
   ],
   "note": "over exact reals"
  },
  {
   "property": "C13",
   "status": "proved",
   "theorems": [
    "Verif.C13_beta_bernoulli",
    "Verif.C13_dirichlet_categorical",
    "Verif.C13_normal",
    "Verif.C13_zero_mean_normal",
    "Verif.C13_stringcat",
    "Verif.C13_bigram",
    "Verif.C13_skellam",
    "Verif.C13_adapter_normal",
    "Verif.C13_normal_posterior"
   ],
   "note": "lgamma is log of Mathlib's Gamma function"
  },
  {
   "property": "C14",
   "status": "proved",
   "theorems": [
    "Verif.C14_beta_bernoulli",
    "Verif.C14_dirichlet_categorical",
    "Verif.C14_stringcat",
    "Verif.C14_bigram",
    "Verif.C14_stringcat_duplicates"
   ],
   "note": "StringCat requires distinct strings; refuted for duplicates"
  },
  {
   "property": "C15",
   "status": "partial",
   "theorems": [
    "Verif.C15_bigram_sample_partial",
    "Verif.C15_truncated_sample_changes_state"
   ],
   "note": "false in the code when the sample is cut at max_length: the row of the last character loses a count; proved otherwise"
  },
  {
   "property": "C17",
   "status": "proved",
   "theorems": [
    "Verif.C17_transition_theta"
   ],
   "note": ""
  },
  {
   "property": "C18",
   "status": "partial",
   "theorems": [
    "Verif.C18_sample_scale_partial",
    "Verif.C18_sample_scale_wrong"
   ],
   "note": "false in the code: sample uses beta + N*var instead of beta + N*var/2; agreement exactly when all data is zero"
  },
  {
   "property": "C19",
   "status": "proved",
   "theorems": [
    "Verif.CleanRel.C19_clusters_exact",
    "Verif.CleanRel.C19_cluster_size",
    "Verif.CleanRel.C19_incorporate",
    "Verif.CleanRel.C19_incorporate_rejects",
    "Verif.CleanRel.C19_unincorporate",
    "Verif.CleanRel.C19_move",
    "Verif.CleanRel.C19_gibbs_scores"
   ],
   "note": "for every Lawful distribution; all distributions of the repository are"
  },
  {
   "property": "C20",
   "status": "proved",
   "theorems": [
    "Verif.CleanRel.C20_index_exact"
   ],
   "note": ""
  },
  {
   "property": "C21",
   "status": "proved",
   "theorems": [
    "Verif.CleanRel.C21_unincorporate_undoes_incorporate",
    "Verif.CleanRel.C21_unincorporate_restores_contents"
   ],
   "note": "exact restoration for distributions with exact round trip (C10); contents for Skellam"
  },
  {
   "property": "C22",
   "status": "partial",
   "theorems": [
    "Verif.CleanRel.C22_gibbs_scores_partial",
    "Verif.CleanRel.C22_side_conditions",
    "Verif.CleanRel.C22_repeated_domain_wrong"
   ],
   "note": "logp_gibbs_exact. False in the code for a relation that uses a domain at two positions (proved witness); proved for distinct domains. logp_gibbs_approx, which nothing calls, is C77."
  },
  {
   "property": "C23",
   "status": "proved",
   "theorems": [
    "Verif.NoisyRel.C23_linked",
    "Verif.NoisyRel.C23_emission_exact",
    "Verif.NoisyRel.C23_incorporate",
    "Verif.NoisyRel.C23_incorporate_rejects",
    "Verif.NoisyRel.C23_unincorporate",
    "Verif.NoisyRel.C23_unincorporate_undoes_incorporate",
    "Verif.NoisyRel.C23_stale_base"
   ],
   "note": "for every Lawful emission; histories in which observed base values are not changed behind the relation's back, and C23_stale_base shows that this condition is needed"
  },
  {
   "property": "C24",
   "status": "partial",
   "theorems": [
    "Verif.CleanRel.C24_clean_update_partial",
    "Verif.CleanRel.C24_clean_update_alone_partial",
    "Verif.CleanRel.C24_clean_alone_differs",
    "Verif.NoisyRel.C24_noisy_update_partial",
    "Verif.NoisyRel.C24_noisy_update_swaps"
   ],
   "note": "clean relations: equal when another observation shares the cluster; otherwise equal up to the parameters of that cluster, and proved different. Noisy relations: false in the code, which stores the pair swapped; proved when the new value is the base value."
  },
  {
   "property": "C42",
   "status": "proved",
   "theorems": [
    "Verif.C42_edit_counts",
    "Verif.C42_tosses",
    "Verif.C42_undo"
   ],
   "note": ""
  },
  {
   "property": "C43",
   "status": "partial",
   "theorems": [
    "Verif.C43_round_trip",
    "Verif.C43_exchangeable",
    "Verif.C43_total",
    "Verif.C43_score_ratio",
    "Verif.C43_sometimes",
    "Verif.C43_bitflip_normalised",
    "Verif.C43_categorical_normalised",
    "Verif.C43_simple_string_above_one",
    "Verif.C43_identity_accepts_changes",
    "Verif.C43_sometimes_categorical_no_round_trip",
    "Verif.BigramString.C43_bigram_score_ratio",
    "Verif.BigramString.C43_bigram_corrupt",
    "Verif.BigramString.C43_bigram_no_round_trip"
   ],
   "note": "proved for BitFlip, Identity, Gaussian, Categorical, SimpleString and Sometimes of a lawful emission; false in the code for sometimes_categorical and BigramStringEmission (no round trip) and, for normalisation, for SimpleString and Identity; of BigramStringEmission only totality and the score ratio hold"
  },
  {
   "property": "C44",
   "status": "proved",
   "theorems": [
    "Verif.C44_gaussian",
    "Verif.C44_sometimes",
    "Verif.C44_categorical",
    "Verif.C44_simple_string",
    "Verif.C44_simple_string_majority",
    "Verif.C44_deterministic",
    "Verif.C44_empty",
    "Verif.BigramString.C44_bigram",
    "Verif.BigramString.C44_bigram_vote"
   ],
   "note": "non-empty lists; the empty list is undefined behaviour for identity, bitflip and sometimes (C44_empty)"
  },
  {
   "property": "C51",
   "status": "proved",
   "theorems": [
    "Verif.HIRM.C51_score",
    "Verif.HIRM.C51_logp",
    "Verif.HIRM.C51_order"
   ],
   "note": "logp: for distinct tuples of clean relations; for noisy relations logp ends the program (C50_noisy_exits), and no observations is undefined behaviour only in IRM::logp"
  },
  {
   "property": "C56",
   "status": "proved",
   "theorems": [
    "Verif.C56_dirichlet_categorical",
    "Verif.C56_stringcat",
    "Verif.C56_bigram"
   ],
   "note": ""
  },
  {
   "property": "C57",
   "status": "proved",
   "theorems": [
    "Verif.CleanRel.C57_predictive_is_score_gain"
   ],
   "note": "distributions with deterministic fresh clusters (all but Skellam)"
  },
  {
   "property": "C58",
   "status": "proved",
   "theorems": [
    "Verif.CleanRel.C58_clean_sample_stored",
    "Verif.NoisyRel.C58_noisy_sample_stored"
   ],
   "note": "clean relations: distributions whose sample leaves the state alone (all but Bigram at its maximal length, see C15)"
  },
  {
   "property": "C16",
   "status": "partial",
   "theorems": [
    "Verif.C16_dirichlet_categorical",
    "Verif.C16_no_categories",
    "Verif.C16_string_nat_partial",
    "Verif.C16_string_nat_too_long",
    "Verif.C16_stringcat",
    "Verif.C16_stringcat_accepted",
    "Verif.C16_stringcat_empty",
    "Verif.C16_bigram_default",
    "Verif.CleanRel.C16_relation"
   ],
   "note": "full for dirichlet_categorical and stringcat; false in the code for string_nat beyond max_length, for bigram (default nearest) and for empty supports, all with witnesses"
  },
  {
   "property": "C40",
   "status": "proved",
   "theorems": [
    "Verif.C40_spells",
    "Verif.C40_at_least_one",
    "Verif.C40_sorted",
    "Verif.C40_best_k",
    "Verif.C40_returns"
   ],
   "note": ""
  },
  {
   "property": "C41",
   "status": "proved",
   "theorems": [
    "Verif.C41_edit_distance",
    "Verif.C41_each"
   ],
   "note": ""
  },
  {
   "property": "C59",
   "status": "partial",
   "theorems": [
    "Verif.BigramString.C59_accounts",
    "Verif.BigramString.C59_totals_restored",
    "Verif.BigramString.C59_worse_alignment_gets_more",
    "Verif.BigramString.C59_index_inverse",
    "Verif.BigramString.C59_delete_char_out_of_bounds"
   ],
   "note": "the accounting is proved in full; the last sentence is false in the code, which weighs by exp(cost) instead of exp(-cost): C59_worse_alignment_gets_more"
  },
  {
   "property": "C25",
   "status": "partial",
   "theorems": [
    "Verif.Latent.C25_latent_partial",
    "Verif.Latent.C25_counted",
    "Verif.Latent.C25_scores_ignore_candidate",
    "Verif.Latent.C25_unchanged",
    "Verif.Latent.C25_statistics_drift",
    "Verif.Latent.C25_no_noisy_relations"
   ],
   "note": "false in the code: the statistics drift, because the value taken out after scoring a candidate is the old one (C25_statistics_drift); proved: stored values and the number of observations of every cluster, and nothing changes if every candidate is the stored value"
  },
  {
   "property": "C26",
   "status": "proved",
   "theorems": [
    "Verif.IRM.C26_items",
    "Verif.IRM.C26_domains",
    "Verif.IRM.C26_observed",
    "Verif.IRM.C26_incorporate",
    "Verif.IRM.C26_incorporate_rejects",
    "Verif.IRM.C26_unincorporate",
    "Verif.IRM.C26_round_trip",
    "Verif.IRM.C26_lingering_entities"
   ],
   "note": "the statement is proved in full (C26_items): histories of add_relation, incorporate, unincorporate, all moves and hyperparameter transitions, without transition_latent_values_relation; if relations are also removed it is false (C26_lingering_entities)"
  },
  {
   "property": "C27",
   "status": "proved",
   "theorems": [
    "Verif.IRM.C27_move",
    "Verif.IRM.C27_move_returned",
    "Verif.IRM.C27_move_rejects",
    "Verif.IRM.C27_sweep",
    "Verif.IRM.C27_step"
   ],
   "note": "single_step_irm_inference without latent transitions (C25). That moves return needs scores determined by the data (FamilyLaws.Scores), because logp_gibbs_exact asserts it; what returned moves do (C27_move_returned) does not"
  },
  {
   "property": "C31",
   "status": "partial",
   "theorems": [
    "Verif.HIRM.C31_hirm_constructor",
    "Verif.HIRM.C31_hirm_rejects",
    "Verif.HIRM.C31_hirm_result",
    "Verif.IRM.C31_irm_constructor_partial",
    "Verif.IRM.C31_irm_result",
    "Verif.IRM.C31_irm_order_matters",
    "Verif.HIRM.C31_add_noisy_without_base"
   ],
   "note": "proved for HIRM; for IRM exact characterisation of the accepted schemas: naming does matter there, so the property is false for IRM"
  },
  {
   "property": "C50",
   "status": "partial",
   "theorems": [
    "Verif.IRM.C50_mixture",
    "Verif.IRM.C50_order",
    "Verif.IRM.C50_normalised_partial",
    "Verif.IRM.C50_one_domain",
    "Verif.IRM.C50_unchanged",
    "Verif.IRM.C50_unchanged_exactly",
    "Verif.IRM.C50_no_observations",
    "Verif.IRM.C50_finite_supports",
    "Verif.IRM.C50_emptied_domain",
    "Verif.IRM.C50_noisy_exits"
   ],
   "note": "proved jointly for any number of clean observations; false in the code for new entities of an emptied domain with alpha different from 1, and logp ends the program for noisy relations"
  },
  {
   "property": "C60",
   "status": "partial",
   "theorems": [
    "Verif.IRM.C60_move_weights_partial"
   ],
   "note": "all relations over distinct domains with deterministic fresh clusters"
  },
  {
   "property": "C28",
   "status": "proved",
   "theorems": [
    "Verif.HIRM.C28_hirm_consistent",
    "Verif.HIRM.C28_hirm_constructed",
    "Verif.HIRM.C28_removed_noisy_relation",
    "Verif.HIRM.C28_removed_noisy_relation_clean",
    "Verif.HIRM.C28_removed_noisy_relation_rebased"
   ],
   "note": "for every history of calls that returned, without conditions on the arguments; base_to_noisy_relations is not part of the claim: the last three theorems show what stays in it after remove_relation of a noisy relation"
  },
  {
   "property": "C29",
   "status": "proved",
   "theorems": [
    "Verif.HIRM.C29_transition_keeps_observations",
    "Verif.HIRM.C29_set_keeps_observations",
    "Verif.HIRM.C29_sweep_keeps_observations"
   ],
   "note": "for every history; whenever the call returns"
  },
  {
   "property": "C30",
   "status": "partial",
   "theorems": [
    "Verif.HIRM.C30_same_table_partial",
    "Verif.HIRM.C30_move_spreads_entities",
    "Verif.HIRM.C30_false"
   ],
   "note": "false of the code: the other IRMs gain the entities that the relation observes (general theorem and a case); proved: no entity is lost or moved, nothing else is gained, the relation objects and the current IRM's domains do not change"
  },
  {
   "property": "C61",
   "status": "proved",
   "theorems": [
    "Verif.HIRM.C61_sound",
    "Verif.HIRM.C61_move",
    "Verif.HIRM.C61_set",
    "Verif.HIRM.C61_move_unknown",
    "Verif.HIRM.C61_sweep",
    "Verif.HIRM.C61_inference",
    "Verif.HIRM.C61_inference_returned",
    "Verif.HIRM.C61_incorporate",
    "Verif.HIRM.C61_incorporated",
    "Verif.HIRM.C61_unincorporate",
    "Verif.HIRM.C61_constructed"
   ],
   "note": ""
  },
  {
   "property": "C52",
   "status": "proved",
   "theorems": [
    "Verif.HIRM.C52_sample",
    "Verif.HIRM.C52_sample_relation",
    "Verif.HIRM.C52_bases",
    "Verif.C52_categorical_supported",
    "Verif.C52_emissions"
   ],
   "note": "for families whose samples are supported (Samples, Compatible), which the listed distributions and emissions are; a run whose draws never find a free tuple goes on for ever and is not claimed to end"
  },
  {
   "property": "C36",
   "status": "proved",
   "theorems": [
    "Verif.C36_tokenize",
    "Verif.C36_refused",
    "Verif.C36_round_trip",
    "Verif.C36_nothing_lost",
    "Verif.C36_leading_point",
    "Verif.C36_nul"
   ],
   "note": "proved for every text without NUL characters; NUL characters (which the code takes for symbols) are C36_nul; a number that starts with a point is split (C36_leading_point)"
  },
  {
   "property": "C37",
   "status": "partial",
   "theorems": [
    "Verif.DataFrame.C37_from_csv",
    "Verif.DataFrame.C37_columns_agree",
    "Verif.DataFrame.C37_round_trip",
    "Verif.DataFrame.C37_given_names_partial",
    "Verif.DataFrame.C37_empty_value_ub",
    "Verif.DataFrame.C37_extra_value_ub",
    "Verif.DataFrame.C37_missing_value_refused",
    "Verif.DataFrame.C37_given_names_false",
    "Verif.DataFrame.C37_repeated_name_false",
    "Verif.DataFrame.C37_single_column_false",
    "Verif.DataFrame.C37_special_values_false"
   ],
   "note": "exact characterisation of what is read from a file with a header; round trip for frames whose values can be written; false in the code for other values, for repeated names, and for the first line when names are given"
  },
  {
   "property": "C38",
   "status": "partial",
   "theorems": [
    "Verif.DataFrame.C38_false",
    "Verif.DataFrame.C38_samples_collected_partial"
   ],
   "note": "false in the code: the column names are never set, so the file is always empty; the data holds one value per sample"
  },
  {
   "property": "C32",
   "status": "proved",
   "theorems": [
    "Verif.UtilIO.C32_calculated",
    "Verif.UtilIO.C32_bijection",
    "Verif.UtilIO.C32_round_trip",
    "Verif.UtilIO.C32_only_known"
   ],
   "note": "for the observations that fit the schema (C32_calculated: exactly those for which an encoding is returned)"
  },
  {
   "property": "C49",
   "status": "partial",
   "theorems": [
    "Verif.UtilIO.C49_accepts",
    "Verif.UtilIO.C49_refuses_partial",
    "Verif.UtilIO.C49_short_ub"
   ],
   "note": "exactly the listed schemas pass the check; a noisy relation with fewer domains than its base is undefined behaviour rather than a refusal"
  },
  {
   "property": "C55",
   "status": "proved",
   "theorems": [
    "Verif.UtilIO.C55_union"
   ],
   "note": ""
  },
  {
   "property": "C34",
   "status": "partial",
   "theorems": [
    "Verif.UtilIO.C34_irm_written",
    "Verif.UtilIO.C34_irm",
    "Verif.UtilIO.C34_hirm_written",
    "Verif.UtilIO.C34_hirm_partial",
    "Verif.UtilIO.C34_numeric_domain_false",
    "Verif.UtilIO.C34_irm_domain_false",
    "Verif.UtilIO.C34_negative_table_false"
   ],
   "note": "IRM files: proved for every reachable IRM; HIRM files: proved except for domains called like a number or starting with irm= and relations at tables with negative numbers, for which the property is false"
  },
  {
   "property": "C35",
   "status": "partial",
   "theorems": [
    "Verif.UtilIO.C35_load",
    "Verif.UtilIO.C35_written",
    "Verif.UtilIO.C35_round_trip_partial",
    "Verif.UtilIO.C35_same_partial",
    "Verif.UtilIO.C35_empty_name_false"
   ],
   "note": "exact characterisation of what is loaded and of what can be written; the round trip holds for observations whose last entity is not the empty string and is false for the others"
  },
  {
   "property": "C33",
   "status": "partial",
   "theorems": [
    "Verif.HIRM.C33_returned",
    "Verif.HIRM.C33_returns_partial",
    "Verif.HIRM.C33_order_false",
    "Verif.HIRM.C33_shared_base_false",
    "Verif.IRM.C33_returned",
    "Verif.IRM.C33_returns_partial",
    "Verif.IRM.C33_order_false",
    "Verif.IRM.C33_shared_base_false"
   ],
   "note": "If incorporate_observations returns, every observation has been stored exactly once and only needed base values have been added, for every order.  It returns for every order if no observed relation is a base.  The full property is false: if a relation and its base are both observed, some order makes it fail, and if two relations share an observed base every order does."
  },
  {
   "property": "C39",
   "status": "proved",
   "theorems": [
    "Verif.C39_parse",
    "Verif.C39_plain",
    "Verif.C39_accepts",
    "Verif.C39_emission"
   ],
   "note": ""
  },
  {
   "property": "C53",
   "status": "partial",
   "theorems": [
    "Verif.UtilIO.C53_accepts",
    "Verif.UtilIO.C53_load_schema",
    "Verif.UtilIO.C53_round_trip",
    "Verif.UtilIO.C53_reads_past_end_false",
    "Verif.UtilIO.C53_cut_line_false",
    "Verif.UtilIO.C53_open_domains_false",
    "Verif.UtilIO.C53_rest_ignored_false",
    "Verif.PClean.C53_variable",
    "Verif.PClean.C53_read_schema",
    "Verif.PClean.C53_pclean_round_trip",
    "Verif.PClean.C53_pclean_past_end_false",
    "Verif.PClean.C53_pclean_refused",
    "Verif.PClean.C53_open_parameters_false",
    "Verif.PClean.C53_malformed_false",
    "Verif.PClean.C53_refused_query_false"
   ],
   "note": "read_schema: the accepted files are exactly those of the grammar File and a written schema is read back; false: exactly the files of FileCut make it read past the end, and some malformed lines are accepted. load_schema: the accepted lines are exactly those of the grammar and a written schema is read back; false: exactly the lines of Cut make it read past the end of the tokens, and text after the closing parenthesis is ignored"
  },
  {
   "property": "C54",
   "status": "partial",
   "theorems": [
    "Verif.C54_joint_types",
    "Verif.C54_joint_parts",
    "Verif.C54_prior_type",
    "Verif.C54_emission_type",
    "Verif.C54_prior_partial",
    "Verif.C54_emission_prior_partial",
    "Verif.C54_no_prior_false"
   ],
   "note": "types agree for every joint name and every prior; not every specification has a prior (C54_no_prior_false)"
  },
  {
   "property": "C45",
   "status": "proved",
   "theorems": [
    "Verif.GenDB.C45_layout",
    "Verif.GenDB.C45_defined",
    "Verif.GenDB.C45_cyclic"
   ],
   "note": "a cyclic class schema recurses without end (C45_cyclic)"
  },
  {
   "property": "C46",
   "status": "partial",
   "theorems": [
    "Verif.GenDB.C46_complete",
    "Verif.GenDB.C46_sound_partial",
    "Verif.GenDB.C46_phantom_false",
    "Verif.GenDB.C46_defined"
   ],
   "note": "every real reference is listed; nothing else is listed for schemas of limited depth; false for every deeper schema (C46_phantom_false)"
  },
  {
   "property": "C62",
   "status": "proved",
   "theorems": [
    "Verif.GenDB.C62_relations",
    "Verif.GenDB.C62_defined",
    "Verif.GenDB.C62_hirm"
   ],
   "note": "the construction fails exactly if two query fields ask for the same variable of a record class declared clean (C62_defined)"
  },
  {
   "property": "C63",
   "status": "partial",
   "theorems": [
    "Verif.GenDB.C63_complete",
    "Verif.GenDB.C63_sound_partial",
    "Verif.GenDB.C63_clean_false",
    "Verif.GenDB.C63_final_false"
   ],
   "note": "complete in the default mode; sound for classes of limited depth; false for a clean record class and with only_final_emissions"
  },
  {
   "property": "C47",
   "status": "partial",
   "theorems": [
    "Verif.GenDB.C47_unique_partial",
    "Verif.GenDB.C47_unshared_partial",
    "Verif.GenDB.C47_key",
    "Verif.GenDB.C47_record_false",
    "Verif.GenDB.C47_sampled_false",
    "Verif.GenDB.C47_zero_false"
   ],
   "note": "the tuple of each relation is determined by its last entity (C47_key, in full for both modes); rows share no entities if the classes on the query paths have no other references and the query asks for no variable of a record class with references; otherwise false in the code: such a query field gets entity 0 in every row (C47_record_false, C47_zero_false), and references outside of the query are sampled from existing entities (C47_sampled_false)"
  },
  {
   "property": "C64",
   "status": "partial",
   "theorems": [
    "Verif.GenDB.C64_incorporate",
    "Verif.GenDB.C64_total",
    "Verif.GenDB.C64_distinct",
    "Verif.GenDB.C64_entities",
    "Verif.GenDB.C64_rows",
    "Verif.GenDB.C64_noisy_record_false",
    "Verif.GenDB.C64_deep_false"
   ],
   "note": "for every schema without chains of more than two references below a class with variables, with a clean record class if the query asks for one of its variables and, with unique entities, reference indices for all query fields; false in the code otherwise: C64_noisy_record_false (endless recursion), C64_deep_false (exception or spurious references), C47_record_false"
  },
  {
   "property": "C48",
   "status": "partial",
   "theorems": [
    "Verif.GenDB.C48_orphans_partial",
    "Verif.GenDB.C48_orphans_false",
    "Verif.GenDB.C48_witness_false",
    "Verif.GenDB.C48_candidate_false"
   ],
   "note": "false in the code: the recursion of unincorporate_from_entity_cluster never reaches the references of the entity, so whenever the reassigned reference was the last one to an entity, the entity keeps its references (C48_orphans_false, for every schema and history; C48_witness_false is a run); and a new entity that was tried but not chosen keeps the references that were sampled for it, even if the reference stays where it was (C48_candidate_false, a run). Proved for schemas whose referenced classes have no references themselves"
  },
  {
   "property": "C65",
   "status": "proved",
   "theorems": [
    "Verif.GenDB.C65_inferred",
    "Verif.GenDB.C65_transition",
    "Verif.GenDB.C65_history"
   ],
   "note": "for every history of calls that returned; the schema conditions are those of C64"
  },
  {
   "property": "C66",
   "status": "partial",
   "theorems": [
    "Verif.GenDB.C66_record_false",
    "Verif.GenDB.C66_weights_false"
   ],
   "note": "false in the code: no reference of a row is ever reassigned if the query asks for a variable of the record class (C66_record_false), and the weights are undefined if two tuples of the reference share a base value (C66_weights_false, a run). What a call that returns does is C65"
  },
  {
   "property": "C67",
   "status": "proved",
   "theorems": [
    "Verif.GenDB.C67_frame",
    "Verif.GenDB.C67_printable",
    "Verif.GenDB.C67_again",
    "Verif.GenDB.C67_heldout_false"
   ],
   "note": "the schema conditions are those of C64; the identifiers of references are assumed to be distinct (C64_distinct), as C64_incorporate tells what happens otherwise. C67_heldout_false: the program's --heldout option numbers the rows from zero again, so that it fails with an assertion"
  },
  {
   "property": "C68",
   "status": "partial",
   "theorems": [
    "Verif.GenDB.C68_names",
    "Verif.GenDB.C68_row_unnamed",
    "Verif.GenDB.C68_text_false",
    "Verif.GenDB.C68_loaded_false",
    "Verif.GenDB.C68_history_unnamed",
    "Verif.GenDB.C68_history_false"
   ],
   "note": "false in the code: the rows have no names, so to_txt throws as soon as a row has a value (C68_loaded_false; C68_text_false also for the states that inference leads to, C68_history_false for all histories of a database and all distributions). Proved: which entities have a name, and which one (C68_names)"
  },
  {
   "property": "C69",
   "status": "proved",
   "theorems": [
    "Verif.GenDB.C69_data",
    "Verif.GenDB.C69_history"
   ],
   "note": "for every history of calls that returned; the schema conditions are those of C64 with unique entities (reference indices for the query fields); values of other relations are not covered. C65_history and C69_history let rows and inference come in any order and need nothing of the distributions"
  },
  {
   "property": "C70",
   "status": "proved",
   "theorems": [
    "Verif.C70_sound",
    "Verif.C70_load",
    "Verif.C70_observe",
    "Verif.C70_observed",
    "Verif.C70_move",
    "Verif.C70_infer",
    "Verif.C70_inferred",
    "Verif.C70_sample",
    "Verif.C70_logp",
    "Verif.C70_sometimes_categorical_false"
   ],
   "note": "for the distributions and emissions of get_distribution.cc and get_emission.cc, as read from a schema file. All but C70_infer hold for all noises; Sessions can also start from saved clusters. C70_infer needs noise that can be undone, so not bigram and sometimes_categorical: C70_sometimes_categorical_false is a session with the latter in which moving an entity aborts. logp excludes skellam, whose new clusters start with random parameters. Printed doubles are assumed to be readable"
  },
  {
   "property": "C71",
   "status": "partial",
   "theorems": [
    "Verif.HirmMain.C71_saves",
    "Verif.HirmMain.C71_reads_back",
    "Verif.HirmMain.C71_load_order_false",
    "Verif.HirmMain.C71_load_order_witness_false",
    "Verif.HirmMain.C71_heldout_freezes",
    "Verif.HirmMain.C71_load_heldout_false"
   ],
   "note": "saving and reading back are proved for all files and draws, also for runs that start from loaded clusters. False in the code: with a noisy relation whose name sorts before its base's, no clusters can be loaded (C71_load_order_false); with load and heldout together the saved file names the wrong entities (C71_load_heldout_false); held-out observations of an unobserved base relation stop its values from being resampled (C71_heldout_freezes)"
  },
  {
   "property": "C72",
   "status": "partial",
   "theorems": [
    "Verif.HirmMain.C72_runs_partial"
   ],
   "note": "proved for all files that satisfy Proper and all draws, with the distributions and emissions of the repository. Missing: observations of base relations (C33 is false there), iterations while base relations have values that are resampled (C25), iterations with emissions that cannot be undone; the option load is C78"
  },
  {
   "property": "C73",
   "status": "partial",
   "theorems": [
    "Verif.HirmMain.C73_saves",
    "Verif.HirmMain.C73_reads_back",
    "Verif.HirmMain.C73_runs_partial",
    "Verif.HirmMain.C73_order_false",
    "Verif.HirmMain.C73_empty_heldout_false"
   ],
   "note": "saving and reading back are proved for all files and draws, also for runs that start from loaded clusters; that runs do not fail is proved with the conditions of C72. False in the code: a noisy relation whose name sorts before its base's stops every run in this mode (C73_order_false), and an empty held-out file is undefined behaviour (C73_empty_heldout_false). Missing: as for C72"
  },
  {
   "property": "C74",
   "status": "partial",
   "theorems": [
    "Verif.PCleanMain.C74_loads",
    "Verif.PCleanMain.C74_data",
    "Verif.PCleanMain.C74_ends_partial",
    "Verif.PCleanMain.C74_modelled",
    "Verif.PCleanMain.C74_heldout_false",
    "Verif.PCleanMain.C74_samples_false",
    "Verif.PCleanMain.C74_output_false",
    "Verif.PCleanMain.C74_observed_samples_false"
   ],
   "note": "reading and incorporating the rows never fails with proper files (C74_loads), and the values after any number of iterations that return are those of the table (C74_data), with the distributions and emissions of the repository; a run without iterations and further options ends (C74_ends_partial). False in the code, for all distributions and iterations: heldout with a value for a row and a query field that the table has (C74_heldout_false), output with a value in the table (C74_output_false), and so samples (C74_samples_false, C74_observed_samples_false). Missing: that iterations do not fail; variables of the joint distributions string and typo_nat with a positive maximal length, whose samples break the bigram counts (C15)"
  },
  {
   "property": "C75",
   "status": "proved",
   "theorems": [
    "Verif.GenDB.C75_clusters"
   ],
   "note": "for every schema, without laws of the distributions and emissions, and for every history of calls that returned. Which values the clusters of the relations hold is C05 and C43; that is not claimed here for databases, whose moves take values of noisy relations out of base relations"
  },
  {
   "property": "C76",
   "status": "proved",
   "theorems": [
    "Verif.HirmMain.C76_irm_loaded",
    "Verif.HirmMain.C76_hirm_loaded",
    "Verif.HirmMain.C76_hirm_stores",
    "Verif.HirmMain.C76_irm_stores",
    "Verif.HirmMain.C76_hirm_round_trip",
    "Verif.HirmMain.C76_irm_round_trip"
   ],
   "note": "for every run that returned, all distributions and emissions, without laws; in the mode hirm the file lists each relation in one cluster only. The round trip is for a saving run that was not itself started from a file (with one that was, C71_load_heldout_false shows that the saved names can be wrong) and for names that are words (C34). Which files are accepted is C71 and C73"
  },
  {
   "property": "C77",
   "status": "proved",
   "theorems": [
    "Verif.CleanRel.C77_approx_score",
    "Verif.CleanRel.C77_approx_exact",
    "Verif.CleanRel.C77_approx_differs",
    "Verif.NoisyRel.C77_noisy_approx"
   ],
   "note": "all distributions and emissions for which C10, C11, C13 and the conditions of C22_side_conditions are proved (not Skellam); C77_approx_differs shows that the condition of the last sentence is needed"
  },
  {
   "property": "C78",
   "status": "partial",
   "theorems": [
    "Verif.UtilIO.C78_loads_partial",
    "Verif.HirmMain.C78_starts_partial",
    "Verif.HirmMain.C78_runs_partial",
    "Verif.HirmMain.C78_reloads_partial",
    "Verif.UtilIO.C78_irm_loads_partial",
    "Verif.HirmMain.C78_irm_starts_partial",
    "Verif.HirmMain.C78_irm_runs_partial",
    "Verif.HirmMain.C78_irm_reloads_partial",
    "Verif.HirmMain.C71_load_order_false"
   ],
   "note": "C78_loads_partial and C78_irm_loads_partial are for all distributions and emissions with the laws, the others for those of the repository. False in the code without the condition that every base relation sorts before the relations that observe it (C71_load_order_false). Missing: as for C72, observations of base relations and iterations while base relations have values that are resampled; in the mode irm a held-out file without lines (C73_empty_heldout_false)"
  },
  {
   "property": "C79",
   "status": "partial",
   "theorems": [
    "Verif.IRM.C79_labels_partial",
    "Verif.IRM.C79_balance_partial",
    "Verif.IRM.C79_distribution_partial",
    "Verif.IRM.C79_unmoved_partial",
    "Verif.IRM.C79_resampled_false"
   ],
   "note": "proved for every reachable IRM and every entity, as long as the parameters of the clusters of the relations that observe it have not been resampled since they were created (Unmoved) and under the conditions of C60 (Scorable). C79_unmoved_partial: the moves themselves keep the first condition. The probabilities are those of log_choice on the computed log weights, over the reals. It is false in states with resampled cluster parameters (C79_resampled_false): a cluster that vanishes loses its parameters and a new one starts with the default ones."
  },
  {
   "property": "C80",
   "status": "proved",
   "theorems": [
    "Verif.HIRM.C80_score_parts",
    "Verif.HIRM.C80_candidates",
    "Verif.HIRM.C80_move_weights",
    "Verif.HIRM.C80_move",
    "Verif.HIRM.C80_score",
    "Verif.HIRM.C80_stay_false"
   ],
   "note": "for all distributions and emissions, whatever they compute, and every history of calls that returned; that the moves return is C61. C80_score: if a move changes no score of a partition of entities, the whole logp_score changes by the difference of the log weights. C80_stay_false: without that condition it is false even if the relation stays where it is, since the IRMs that were not drawn keep the entities of the relation (C30)"
  },
  {
   "property": "C81",
   "status": "proved",
   "theorems": [
    "Verif.GenDB.C81_reference",
    "Verif.GenDB.C81_singleton",
    "Verif.GenDB.C81_put",
    "Verif.GenDB.C81_reference_back",
    "Verif.GenDB.C81_singleton_back",
    "Verif.GenDB.C81_both_back"
   ],
   "note": "for all schemas, distributions and emissions, without laws, for every history of calls that returned, including calls of the three functions themselves in any order and any change of the references in between (Handled). The clusters of the entities are the subject of C82"
  },
  {
   "property": "C82",
   "status": "proved",
   "theorems": [
    "Verif.GenDB.C82_in_order",
    "Verif.GenDB.C82_reference",
    "Verif.GenDB.C82_singleton",
    "Verif.GenDB.C82_rejoin",
    "Verif.GenDB.C82_reference_back",
    "Verif.GenDB.C82_both_back"
   ],
   "note": "for all schemas, distributions and emissions, without laws, for every history of calls that returned (Handled). Clusters are those of the entities; the state of the distributions of the cells is not part of the statement, since fresh cells are drawn"
  },
  {
   "property": "C83",
   "status": "partial",
   "theorems": [
    "Verif.GenDB.C83_reference_partial",
    "Verif.GenDB.C83_singleton_partial",
    "Verif.GenDB.C83_both_partial",
    "Verif.GenDB.C83_distributions",
    "Verif.GenDB.C83_reference_false"
   ],
   "note": "proved whenever the returned number is finite, for every history of rows (unincorporate_reference) and of calls (unincorporate_singleton) in which the parts of the model are in order (HIRM.Reach, met by loaded databases: Loaded.reach), with the distributions and emissions of C83_distributions. False in the code otherwise: when two of the values share a base value, the base value goes with the first, and the second counts as impossible, so that minus infinity is returned although the score stays finite (C83_reference_false, a run)"
  },
  {
   "property": "C84",
   "status": "partial",
   "theorems": [
    "Verif.GenDB.C84_rows_partial",
    "Verif.GenDB.C84_all_partial",
    "Verif.GenDB.C69_history",
    "Verif.GenDB.C84_moved_false"
   ],
   "note": "proved for all attributes as long as rows are incorporated (C84_rows_partial, and C84_all_partial for the values of all relations, with the schema conditions of C64) and for the values of the query fields after any history (C69_history). False in the code for other attributes once a reference is reassigned: get_domain_inds looks at the query fields only, so the values of attributes that the query does not ask for stay at the old entities, even if nothing refers to those any more (C84_moved_false, a run)"
  },
  {
   "property": "C85",
   "status": "proved",
   "theorems": [
    "Verif.GenDB.C85_tuples",
    "Verif.GenDB.C85_same",
    "Verif.GenDB.C85_returns",
    "Verif.GenDB.C85_rows",
    "Verif.GenDB.C85_loaded"
   ],
   "note": "C85_tuples is about any references and any stored values that are at the tuples of their entities (Belongs), with the schema conditions of C64 and C69; C85_rows and C85_loaded show that what unincorporate_reference stores is of this kind, for query fields after any history and for all relations after rows. The function puts the reference back when it returns, not when it throws; the model returns the result only"
  },
  {
   "property": "C86",
   "status": "partial",
   "theorems": [
    "Verif.GenDB.C86_weight_partial",
    "Verif.GenDB.C86_new_partial",
    "Verif.GenDB.C66_weights_false"
   ],
   "note": "proved for candidates that are entities already and for the one that is a new entity, tried one after the other, whenever the number found is finite, for databases of rows whose parts are in order (HIRM.Reach), with distributions and emissions as in C83 where the emissions accept all pairs of values (Freely). For a new entity, its values are sampled as in C52 (Samples, Compatible). Missing: that the noisy values always have base values between the candidates (Whole is a hypothesis, checked for the example); that the model without the values is the same for all candidates. False in the code where two values share a base value: the weight is then not a number or minus infinity (C66_weights_false)"
  },
  {
   "property": "C87",
   "status": "partial",
   "theorems": [
    "Verif.C87_reads",
    "Verif.C87_unique",
    "Verif.C87_round_trip",
    "Verif.C87_other_false",
    "Verif.C87_blank_false",
    "Verif.C87_true_false"
   ],
   "note": "reading numerals and the round trip are proved for all texts and values (reals as far as the stream reads back what it writes, which is left open). False in the code: text that is no number is not rejected but read as 0 or false, so that the word true is false (C87_other_false, C87_true_false), and blank text leaves the value undefined (C87_blank_false). The range of int is not modelled"
  },
  {
   "property": "C88",
   "status": "partial",
   "theorems": [
    "Verif.GenDB.C88_choice_partial"
   ],
   "note": "proved for every call that returns, from databases of rows with any history whose parts are in order (HIRM.Reach, met by loaded databases), with distributions and emissions as in C83 and whenever the log probability of the present value is a number. The weights of the other candidates are C86. Missing: that the parts stay in order when references are reassigned. The probabilities of the draw are those of C89"
  },
  {
   "property": "C89",
   "status": "proved",
   "theorems": [
    "Verif.C89_log_choice",
    "Verif.C89_sample",
    "Verif.C89_softmax",
    "Verif.C89_shift",
    "Verif.C89_safe",
    "Verif.C89_none",
    "Verif.C89_support"
   ],
   "note": "over the reals; std::discrete_distribution is modelled by its probabilities (weight divided by sum). C89_none: if all log weights are -inf, or there are none, both functions are undefined. C89_support: the draws of the model of transition_reference are the indices of positive probability"
  },
  {
   "property": "C90",
   "status": "proved",
   "theorems": [
    "Verif.C90_beta_bernoulli",
    "Verif.C90_dirichlet",
    "Verif.C90_normal",
    "Verif.C90_zero_mean_normal",
    "Verif.C90_stringcat",
    "Verif.C90_bigram",
    "Verif.C90_skellam",
    "Verif.C90_lognormal",
    "Verif.C90_crp",
    "Verif.C90_crp_empty",
    "Verif.C90_balance",
    "Verif.C90_support_beta_bernoulli",
    "Verif.C90_support_dirichlet",
    "Verif.C90_support_normal",
    "Verif.C90_support_zero_mean_normal",
    "Verif.C90_support_stringcat",
    "Verif.C90_support_bigram",
    "Verif.C90_support_skellam",
    "Verif.C90_support_crp"
   ],
   "note": "over the reals, with the draw of C89; the points that the code leaves out because their score is not a number are points of floating-point overflow, which is not modelled. C90_lognormal: the density used for the latent rates of Skellam is the log-normal one. C90_support_*: the outcomes of the tape model of the other theorems are the states of positive probability"
  },
  {
   "property": "C91",
   "status": "proved",
   "theorems": [
    "Verif.C91_reversible",
    "Verif.C91_stationary",
    "Verif.C91_total",
    "Verif.C91_accept",
    "Verif.C91_positive",
    "Verif.C91_proper"
   ],
   "note": "over the reals; the draws of the standard library are modelled as exact draws from the normal and uniform distributions, the Bessel function by its series"
  },
  {
   "property": "C92",
   "status": "proved",
   "theorems": [
    "Verif.C92_sample",
    "Verif.C92_normalized"
   ],
   "note": "over the reals; the draws of std::poisson_distribution are modelled as exact Poisson draws, std::cyl_bessel_i by the series of the modified Bessel function"
  },
  {
   "property": "C93",
   "status": "partial",
   "theorems": [
    "Verif.C93_beta_bernoulli",
    "Verif.C93_dirichlet_categorical",
    "Verif.C93_stringcat",
    "Verif.C93_crp",
    "Verif.C93_crp_empty_false",
    "Verif.C93_bigram_partial",
    "Verif.C93_bigram_truncated_false"
   ],
   "note": "over the reals, with the draw of C89. False in the code in two cases, both proved: an empty CRP reports 1/alpha for the table it always draws, and a Bigram returns strings of maximal length more often than it reports, since no stop symbol is drawn after them. StringCat with distinct strings"
  },
  {
   "property": "C94",
   "status": "partial",
   "theorems": [
    "Verif.C94_normal",
    "Verif.C94_normalized",
    "Verif.C94_zero_mean_partial",
    "Verif.C94_zero_mean_false",
    "Verif.C94_zero_mean_normalized"
   ],
   "note": "proved in full for Normal: the law of sample, as a Mathlib measure built from exact gamma and normal draws, has density exp(logp). For ZeroMeanNormal proved to hold exactly when all data held are zero, hence false in the code for other data (the scale of C18); that the densities integrate to one is proved for both."
  },
  {
   "property": "C95",
   "status": "partial",
   "theorems": [
    "Verif.C95_bitflip",
    "Verif.C95_identity_partial",
    "Verif.C95_identity_false",
    "Verif.C95_categorical",
    "Verif.C95_sometimes",
    "Verif.C95_sometimes_bitflip",
    "Verif.C95_sometimes_categorical_partial",
    "Verif.C95_grows",
    "Verif.C95_sometimes_categorical_removed_false",
    "Verif.C95_gaussian_partial",
    "Verif.C95_gaussian_false",
    "Verif.C95_simple_string_false",
    "Verif.C95_bigram_string_empty",
    "Verif.C95_bigram_string_false",
    "Verif.C95_bigram_string_support",
    "Verif.C95_bigram_string_grown"
   ],
   "note": "proved in full for BitFlip, CategoricalEmission, and sometimes-bitflip, and for Sometimes over any base emission that has it. False in the code, with proofs: IdentityEmission reports probability one for values it never draws; GaussianEmission has the reported density exactly when every pair held was unchanged (C94); SimpleStringEmission reports numbers above one (C43); BigramStringEmission reports probability one for the empty string, which it changes with positive probability (what it can draw at all are the printable strings, C95_bigram_string_support and _grown). Missing: sometimes-categorical after removals, which do not undo additions there (C43) and can leave its coin with -1 changes and the logarithm of 0 (C95_sometimes_categorical_removed_false); it is proved for all states reached by additions, of which the code stores fractions, and hyperparameter transitions."
  },
  {
   "property": "C96",
   "status": "proved",
   "theorems": [
    "Verif.C96_bitflip",
    "Verif.C96_identity",
    "Verif.C96_gaussian",
    "Verif.C96_categorical",
    "Verif.C96_sometimes",
    "Verif.C96_simple_string",
    "Verif.C96_bigram_string",
    "Verif.C96_support_gaussian",
    "Verif.C96_support_categorical",
    "Verif.C96_support_sometimes_categorical",
    "Verif.C96_support_sometimes_gaussian",
    "Verif.C96_support_sometimes_bitflip",
    "Verif.C96_support_simple_string",
    "Verif.C96_support_bigram_string"
   ],
   "note": "over the reals, with the draws of C90; detailed balance follows by C90_balance. C96_support_*: the outcomes of the tape model of the other theorems are the states of positive probability"
  }
 ]
}