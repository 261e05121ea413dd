# Formal model of probcomp/hierarchical-irm (C++) in Lean 4

Subject: `/repo/cxx` (HIRM / IRM inference engine, its distributions and emissions, the
text formats, and the GenDB / PClean layer).  Model and proofs: `/verif/lean/Verif/`.

## 1. Conventions

* **Outcomes.** A C++ function that can fail returns `Except Err α`.  `Err` distinguishes
  `assert` (a failed `assert`), `exit` (a `std::exit(1)`), `outOfRange` (a throwing `.at`) and
  `ub` (undefined behaviour: out-of-bounds `[]`, `back()` of an empty container, ...).
  The asserts are modelled as enabled (no `NDEBUG`).
* **Containers.** `std::map`, `std::unordered_map` and the sets are association lists / lists with
  explicit "no duplicate key" invariants that are *proved* preserved.  Where the C++ iteration order is
  unspecified, the theorem either quantifies over the order or the result is shown
  independent of it.
* **Numbers.** `double` is modelled by exact real numbers (`ℝ`), `int` by `Int`/`Nat` without
  overflow.  Rounding, overflow and NaN are *not* modelled, except `-inf` log weights in
  `logsumexp` (`WithBot ℝ`-style).
* **Unordered iteration.** A loop over an `std::unordered_map`/`unordered_set` whose order can be
  observed is modelled by `shuffle l tape`: the tape chooses the order, and `shuffle_perm` shows that
  it yields permutations.  Theorems quantify over the tape, hence over every iteration order.
* **Randomness.** Every random draw is an explicit argument: a `Tape` of natural numbers that
  resolves each discrete choice; theorems quantify over all tapes, hence over all
  draws.  The probabilities of the draws are modelled for the choice functions (C89), the moves of entities (C79) and of hyperparameters (C90, C96), and for samples of Skellam (C91, C92), the discrete distributions (C93), Normal and ZeroMeanNormal (C94), and of the emissions other than SimpleStringEmission (C95) only.
* **Distributions inside relations** are an abstract record `DistOps` (the virtual interface
  `Distribution<T>`), with two laws: `Lawful` ("`incorporate`, `unincorporate`, `logp` and `sample` succeed on the
  support and keep track of the multiset of incorporated values") and `Scored` ("the score is a function of that
  multiset").  `Lawful` is proved for every distribution and emission of the repository, `Scored` for all but the emissions
  `bigram` and `sometimes_categorical`, whose `unincorporate` does not undo `incorporate`; only the theorems that say that
  Gibbs moves of entities return need `Scored`.
* **Where the code violates a property** the model keeps the code's behaviour; the negation is
  proved on a concrete witness and the part that does hold is proved under the name `..._partial`.

## 2. Files

`Verif/Basic/*` containers, outcomes, tape.  `Verif/Model/*` the model.  `Verif/Spec/*` small
specifications that do not use the model's helpers.  `Verif/Lemmas/*` proofs.  `Verif/Props/*` the
property theorems, each followed by an example meeting its hypotheses.

| model file | C++ (under /repo/cxx) |
|---|---|
| Model/CRP | distributions/crp.{hh,cc}, domain.hh |
| Model/Math | util_math.{hh,cc} (product, logsumexp, linspace, log_normalize, choose/sample from log weights) |
| Model/Dist | distributions/{beta_bernoulli,dirichlet_categorical,normal,zero_mean_normal,stringcat,string_nat,bigram,skellam,nonconjugate,base,adapter} |
| Model/Emission, Model/BigramString, Model/Alignment | emissions/* |
| Model/Relation, Model/NoisyRelation, Model/Rel, Model/LatentValue | clean_relation.hh, noisy_relation.hh, relation.{hh,cc}, transition_latent_value.hh |
| Model/IRM, Model/HIRM | irm.{hh,cc}, hirm.{hh,cc}, inference.cc |
| Model/Text, Parse, UtilIO, ObsFile, ClusterFile, SchemaFile, Incorporate | util_parse.cc, util_io.cc, get_distribution.cc, get_emission.cc, pclean/get_joint_relations.cc (table of joint names) |
| Model/CSV, PCleanIO, PCleanLib, PCleanMain | pclean/csv.cc, pclean/schema.hh, pclean/io.cc, pclean/pclean_lib.cc, pclean/pclean.cc |
| Model/Priors | distributions/get_distribution.cc, emissions/get_emission.cc (get_prior), util_observation.hh: the family of all distributions and emissions |
| Model/HirmMain | hirm_main.cc |
| Model/GenDBSchema, GenDB, GenDBMove | gendb.{hh,cc}, pclean/get_joint_relations.cc |

## 3. Plan per property

| id | modelled | proof |
|----|----------|-------|
| C01,C02 | CRP state and operations | invariant by induction over operation lists; round trip |
| C03,C05 | tables_weights, tables_weights_gibbs, logp | sums over the seating plan; gibbs = weights after removal |
| C04 | logp_score with `Real.Gamma` | induction over seating sequences |
| C06 | Domain | induction over histories and tapes |
| C07 | product | equality with an independent definition by recursion |
| C08 | logsumexp over reals with -inf | algebra of exp/log |
| C09 | linspace, log_linspace, grid selection | arithmetic, every tape |
| C10-C14 | each distribution | state = function of the multiset of values; gamma identities |
| C15 | Bigram::sample | FALSE at max_length: witness + partial |
| C16 | nearest | order/minimality arguments; FALSE for string_nat: witness |
| C17 | nonconjugate MH step | case split on accept |
| C18 | ZeroMeanNormal::sample scale | FALSE: witness + characterisation |
| C19-C21 | CleanRelation over any lawful distribution | invariant by induction over histories |
| C22 | logp_gibbs_exact | score difference; FALSE for repeated domains: witness + partial |
| C23,C24 | NoisyRelation | invariant; update_value FALSE for noisy: witness + partial |
| C25 | transition_latent_value | FALSE: witness + partial |
| C26,C27 | IRM | invariant by induction over histories and tapes |
| C28-C31 | HIRM | invariants; C30 FALSE: witness; C31 FALSE for IRM, proved for HIRM |
| C32,C55 | encoding, merge | induction over observations |
| C33 | incorporate_observations | FALSE: witness + partial |
| C34,C35 | text formats at token level | round trip |
| C36,C37,C39,C53 | tokenizer, CSV, specs, schema | round trip, total outcome analysis |
| C38 | make_pclean_samples | FALSE: every output is empty |
| C40,C41 | topk_alignments for every legal heap choice | search invariant; Dijkstra argument |
| C42-C44 | emissions | recursion equations; C43 partly FALSE |
| C45-C48 | GenDB | induction over class hierarchy; C46, C48 FALSE: witness + partial |
| C49 | verify_noisy_relation_domains | decision logic |
| C50 | IRM::logp | finite sums over all cluster combinations; FALSE for emptied domains: characterisation + witness |
| C60 | IRM entity moves | score difference of every candidate against the weights; relations as in C22 |
| C61 | HIRM moves, sweeps, inference_hirm | full invariant by induction over histories; totality of every move |
| C51,C52 | HIRM logp and sampling | grouping lemma; loop invariant |
| C56 | distributions | rejection of unsupported values in every state |
| C57,C58 | predictive scores and sampling of one observation | score sum over the clusters; equality of runs |
| C59 | BigramStringEmission over every alignment list | sums over the pieces of an alignment; last sentence FALSE: theorem |
| C54 | joint names table | finite table, complete enumeration of the table in the source |
| C62,C63 | schema of GenDB: relations, reference indices per query field | induction over the class hierarchy; C63 FALSE in two cases: theorems |
| C64 | incorporate of a row, any number of rows | invariant over histories; refinement against "the entities a row names"; FALSE cases: theorems |
| C65 | transition_reference, inference_gendb | invariant for every history and tape of calls that return |
| C66 | totality of transition_reference | FALSE: theorem for record-class queries, run for undefined weights |
| C67 | incorporate_observations of pclean | refinement: data frame -> values stored in the query relations; --heldout FALSE |
| C68 | make_dummy_encoding + to_txt | names of the entities exactly; FALSE as soon as one row has a value |
| C69 | data of the query relations under transition_reference, inference_gendb | invariant "the values are those of the rows, at their tuples" through taking out, updating and putting back, for every history and tape, with rows incorporated at any time and no assumption on the distributions (C69_history) |
| C70 | all distributions and emissions as one family (`Model/Priors`), with the HIRM | each distribution's laws put together; the invariants of C33, C51, C52, C61 for every session of user calls; inference with noise that cannot be undone FALSE: run |
| C71 | the program hirm (`Model/HirmMain`): its files are texts, its options the fields of `Args` | invariant: the entities of all domains and tuples have names in the encoding, kept by every operation from the constructor or `from_txt` to the end of inference; then C34. Loading before its base, loading with held-out observations, and no influence of held-out observations FALSE |
| C72 | the same program with the distributions and emissions of the repository (`Model/Priors`); the input files of the theorem are described in `Spec/HirmMain` (`Proper`) | composition: C35 and C32 for the files, C31 for the constructor, C70 for loading, inference, `logp` and sampling, C71 for saving; `logpArgs` is proved to ask for exactly the held-out lines. Partial: without observed bases, resampled bases under iterations, and `load` |
| C73 | the same program in the mode irm (`startIrm`, `inferenceIrm`, `runIrm` of `Model/HirmMain`) | as C71 and C72 with the invariants of the IRM (`Lemmas/KnownIRM`); reading observations is treated once for both models (`Lemmas/Feeds`); the two falsities follow from C31 and C50. Partial as C72 |
| C74 | the program pclean (`Model/PCleanMain`) with the distributions and emissions of the repository; its files are described in `Spec/PCleanMain` (`Proper`) | composition: C45, C46, C62 for the constructor, C67 for the rows, C69 for inference; heldout, output and samples FALSE, from C69_history, C68_history_false for every history |
| C75 | every function of gendb.cc that changes the relations (`Model/GenDB`, `Model/GenDBMove`); the order is in `Spec/GenDBClusters` (`HIRM.InOrder`) | an invariant of IRM and HIRM that needs no laws (`Lemmas/IRMSound`, `HIRMSound`), kept by every step of a database (`Lemmas/GenDBFirm`: `Holding`), induction over the history |
| C76 | `from_txt`, `load_clusters_*`, the program hirm in both modes (`Model/Incorporate`, `ClusterFile`, `HirmMain`); what observations say is `Told`, `Stated`, `Mentions` in `Spec/Told` | invariants of the loops of `from_txt` (who sits where, `Lemmas/Restore`, `RestoreHirm`), a law of reading observations that is the same for both models (`Lemmas/Told`), inference keeps the stored tuples (`HIRM.inference_stores`, `Lemmas/RestoreRun`); then C71 and C73 |
| C77 | `logp_gibbs_approx` of clean and noisy relations (`Model/Relation`, `NoisyRelation`); `Shares` in `Props/Approx` says what the score is made of | each step of the loop leaves the relation as it was (C10, C11), its term is the difference of `logp_score` (C13); groups of one tuple for the exact score (`Lemmas/Approx`) |
| C78 | `from_txt` and the program hirm with the option load (`Model/Incorporate`, `HirmMain`); which files suit is `SuitsHirm` in `Spec/Loading` | the calls of `from_txt` are steps of a reachable model (`Lemmas/LoadReach`), and none of its assertions fails for a file that suits (`Lemmas/LoadTotal`); a saved file suits by C71 and the invariants of C61 (`Lemmas/LoadRun`); the same for the mode `irm` (`Props/LoadingIrm`) |
| C79 | `transition_cluster_assignment_item`, `logp_score` (`Model/IRM`); `SamePartition`, `Unmoved` and the probability of a move (`MovesTo`) are in `Spec/Balance` | the score is a sum over clusters of their contents, so renaming clusters permutes the sum; by C60 the weights are scores up to a constant, and the candidates before and after a move lead to the same partitions, so the normalising constants agree (`Lemmas/Balance`); that moves resample nothing is an instance of the same lemmas for laws that remember it (`Lemmas/Born`); with resampled parameters FALSE: theorem with a witness (`Props/BalanceFalse`) |
| C80 | `transition_cluster_assignment_relation` (`Model/HIRM`); the parts of the score and the first half of a move (`relationScores`) are in `Spec/RelMove` | the weight of a table is its CRP weight and the score of the relation's copy there, and the copy that is kept is the one that was scored (`Lemmas/RelMove`); the CRP part by C05's score differences; that the whole score changes in the same way FALSE: run |
| C81 | `unincorporate_reference`, `unincorporate_singleton`, `incorporate_reference` and what they call (`Model/GenDBMove`); the stored map, the histories and `Conserved` are in `Spec/GenDBConserve` | each function moves single values between the relations and the stored map, so conservation is kept by every step and composes (`Lemmas/GenDBConserve`: `Out`, `Back`); what is gone stays away, which gives completeness; the index of a relation lists all tuples of an entity |
| C82 | as C81, and `unincorporate_from_domain_cluster_relation` and the loop of `reincorporate_new_refval` over the record; `cluster`, `Recorded` and `Used` are in `Spec/GenDBConserve` | taking values out leaves the domains alone, and each entity that leaves is recorded, so the record composes (`Lemmas/GenDBSeats`: `Left`); the entities of a stored tuple were in clusters, so once they are back incorporating the value seats nobody anew (`Still`) |
| C83 | as C81, and `logp_score` and `cluster_or_prior_logp_from_items`; `Tells` (a distribution whose `logp` is the difference of the scores) is in `Spec/GenDBLogp` | taking a single value out changes the score of one cluster by the returned log probability, and an entity leaving a domain changes the score of its CRP so (C04), if the returned number is finite; the differences add up along the recursion (`Lemmas/GenDBLogp`: `Falls`, `Drops`). The witness of the failure is a run. |
| C84 | as C64 and C69; `PlaceOf` is in `Spec/GenDBPlaces` | the invariant of `incorporate` (C64) says that all tuples follow the references; with the completeness of the reference indices of attributes (C46, C63) these are the references of the schema. The witness of the failure after a reassignment is a run. |
| C85 | `update_reference_items` and `get_relation_items`; `Belongs` (the tuple at which a relation has the value of an entity) and `Redirected` are in `Spec/GenDBUpdate` | each relation is a query field, an attribute or a link of a path (C62), and its reference indices are a tree rooted in the last position (C63), so that a tuple is determined by its last entity and two values cannot meet (`Lemmas/GenDBUpdate`: `Sited`); the new tuples are found position by position |
| C86 | `transition_reference`, the loop over the candidates (`tryTable`); `Between` (the databases between the candidates), `Whole` (noisy values have base values) and `Freely` (emissions accept all pairs) are in `Spec/GenDBWeigh` | incorporating a value adds it to one cluster and pairs it with its base value (`Lemmas/GenDBWeigh`: `incorporate_filed`), so that after the stored values are put back the clusters hold what C83 needs; the values put back are the ones taken out (`updateItems_part`); the values sampled for a new entity are put in the same way (`seatNew_keeps`) and taken out with it (C83); partial: base values between candidates are a hypothesis |
| C87 | `Relation::from_string` (`fromString`) and writing values (`showValue`); `Numeral` is in `Spec/Values` | the numeral is split into blanks, sign, digits and rest, and the value of the digits is `Nat.ofDigits`; the other direction says that every text that is read as a number starts with a numeral |
| C88 | `transition_reference` as a whole (`moveRef`, `leave`, `candidates`, `finish`); `Weighs` (one log weight per candidate, in order) is in `Spec/GenDBChoice` | by induction over the candidates each adds one log weight and its notes (`candidates_weighs`); the weight of the present value is the sum of the two log probabilities of C83; a sampled index has a finite weight (`sampleFromLogps_some`); partial: states whose parts are in order |
| C89 | `choice`, `log_choice`, `sample_from_logps` as the probabilities of the indices (`Model/Choice`), `softmax` in `Spec/Choice` | a common factor of the weights cancels (`discrete_scale`); for `log_choice` it is the normalising constant of C08, for `sample_from_logps` the largest weight |
| C90 | the functions `transition_hyperparameters` and `transition_alpha` as lists of states with probabilities (`Model/HyperMove`); `Posterior` and the log-normal density (from the Gaussian density of Mathlib) are in `Spec/HyperMove` | the loops list each point of the grid once, with its own score, and C89 gives the probabilities (`gridDraw_posterior`); two states with the same data list the same points, so the normalising constants agree (`C90_balance`) |
| C91 | the probability with which `transition_theta` ends in a set of rates, from exact normal and uniform draws (`Model/SkellamLaw`); the Bessel function as a series, the Skellam probabilities, log-normal prior, posterior, `Reversible` and `Stationary` are in `Spec/Metropolis` (Mathlib measures) | acceptance is the Lebesgue measure of the accepted draws; the flow of accepted moves is the integral of the smaller of two likelihoods, which is symmetric by Tonelli, and that of rejected moves lies on the diagonal (`Lemmas/Metropolis`); the score is the logarithm of the likelihood of all data held, by the representation of C11 |
| C92 | the law of `sample` as the difference of two Poisson measures of Mathlib (`Model/SkellamLaw`) | the probability of an integer is a series over the second draw, whose terms are those of the Bessel series (`poisson_term`); the normalisation follows since the law is a probability measure |
| C93 | the probabilities of `sample` for BetaBernoulli, DirichletCategorical, StringCat, CRP, and the probability that the loop of `Bigram::sample` ends with a given string within n rounds, as sums over all draws (`Model/SampleLaw`) | the weights given to `choice` are the numerators of `logp`, and their sum is its denominator, by the representations of C11 and the weights of C03; for Bigram by induction over what is left of the string: runs that leave it contribute zero, and the others are the product of the transitions of `logp`, conditioned on the earlier ones. Negations for an empty CRP and for strings of maximal length |
| C94 | the laws of `Normal::sample` and `ZeroMeanNormal::sample` as Mathlib measures: the image, under the modelled function, of independent gamma and standard normal measures (`Model/NormalLaw`); Student's t as a normal draw over the root of a chi-squared draw | the two normal draws add up to one (`two_normals`, by the convolution of Gaussians); Tonelli and the gamma integral give the density (`Lemmas/StudentT`), which is compared with `logp` through the recursion of the posterior scale. For ZeroMeanNormal the two continuous densities are compared at zero, which makes the condition on the data exact |
| C95 | the probabilities of `sample_corrupted` as lists of values with probabilities, and as the image of the law of C94 for GaussianEmission (`Model/EmissionLaw`), and for BigramStringEmission by recursion over the clean string (`Model/BigramLaw`); the probability of a value is the sum of those listed for it, and `Grown` are the states reached by additions and hyperparameter transitions (`Spec/EmissionLaw`) | the representations of C43 and the draws of C93; for Sometimes, the law is the coin's mixture of the clean value and the base emission's law, compared with the three cases of `logp`; for GaussianEmission by translation invariance of Lebesgue measure |
| C96 | `transition_hyperparameters` of the emissions as lists of states with probabilities (`Model/EmissionHyper`); data and grids of the parts in `Spec/EmissionHyper`, the posterior of C90 | independent draws from two posteriors are a draw from the posterior for the sum of the scores; by induction over the rows of a vector of distributions; the states of positive probability are the outcomes of the model that reads its draws from a tape |

## 4. Trusted base

* Lean 4.33.0's kernel.  Every theorem depends on a subset of the axioms `propext`,
  `Classical.choice`, `Quot.sound` (`#print axioms`); theorems about computed runs that close by `rfl`
  depend on fewer.  No axioms are added, there is no `sorry`, no `native_decide`, no `bv_decide`.
* The reading of the C++ into `Verif/Model` (each definition cites its lines), in particular
  the conventions of section 1.
* Mathlib's definitions of `Real.log`, `Real.exp`, `Real.Gamma` as the meaning of `log`, `exp`, `lgamma`.

### Modelled
All of crp, domain, clean_relation, noisy_relation, relation,
transition_latent_value, irm, hirm, inference (without clocks and printing), all distributions (the adapter is
`DistOps.adapt` in Spec/Dist; the sampling functions as far as listed below) and emissions, util_math, util_parse, util_io, csv, schema, io, pclean_lib, get_joint_relations, gendb.

### Not modelled
* the program `typename_playground.cc`; of `hirm_main.cc` and `pclean.cc` the parsing of the command line and the messages;
* timeouts, clocks, progress output, destructors and memory management (`delete`, `free`);
* opening of files (a file is its text), locales other than "C";
* the numeric value of `std::cyl_bessel_i`, the standard library's normal, gamma, Student-t and Poisson draws, and reading and
  printing of doubles: they are the parameters of `World` (Model/Priors), about which the theorems assume nothing but, where
  stated, that a printed double can be read (C91 and C92 take the Bessel series and exact normal, uniform and Poisson draws);
* floating-point rounding, overflow, NaN;
* the hash functions of `util_hash.hh` (lookups do not depend on them; the *reference-id* hash of
  GenDB is an arbitrary function, and collisions are a case of C64);
* the dispatch through `std::visit`/`typename` (`irm.cc:13-28`): a relation's value type is the sum type `Value`;
* threads: the code has none.

## 5. What the proofs found in the code

Each item is a theorem of the named claim unless marked "(read only)".

1. `NoisyRelation::update_value` removes and inserts the pair swapped (C24).
2. `transition_latent_value` takes the wrong value out after scoring: statistics drift (C25).
3. `logp_gibbs_exact_variant` is wrong if a relation uses a domain twice (C22).
4. `IRM(schema)` throws if a noisy relation's name sorts before its base (C31); `HIRM::add_relation` of a noisy
   relation fails without its base (C31_add_noisy_without_base).
5. `remove_relation` of a noisy relation leaves it in `base_to_noisy_relations` (C28).
6. `incorporate_observations` can incorporate a base value twice, depending on order (C33).
7. `product({})`, `verify_noisy_relation_domains` with too few domains: out-of-bounds access (C07, C49).
8. Emptied CRP: the weight of the only table is not normalised (C05, C50).
9. `Bigram::sample` cut at max_length changes the counts (C15); `ZeroMeanNormal::sample` scale (C18);
   `string_nat`/`bigram` `nearest` (C16); repeated strings in `stringcat` (C14); fractional weights in `BetaBernoulli` (C10).
10. `SimpleString` scores above one, `Identity` accepts changed pairs, `Sometimes` of a categorical and `BigramStringEmission` have no round trip (C43);
    with the noise `sometimes_categorical`, moving an entity of a clean model aborts (C70).
11. `BigramStringEmission` weighs alignments by exp(cost) (C59); deletion indexes out of bounds (C59).
12. A relation moved between IRMs spreads its entities to the others (C30); so `logp_score` changes even if the relation stays (C80_stay_false).
13. CSV: empty middle values, surplus values, repeated names, single columns (C37); `make_pclean_samples` writes an empty file (C38).
14. Cluster files: numeric or `irm=` domain names and negative tables are misread (C34). Observation files: an empty last entity is dropped (C35).
15. Schema files: reading past the end, cut lines, ignored rests (C53); specifications without a prior (C54).
16. GenDB: cyclic schema recurses for ever (C45), phantom reference indices (C46, C64_deep_false),
    `only_final_emissions` overwrites indices and clean record relations have none (C63),
    entity 0 shared by record-class fields (C47), endless recursion for noisy record-class fields (C64),
    `unincorporate_from_entity_cluster` never recurses (C48), candidates that are not chosen keep their references (C48), transitions of record-class references throw (C66),
    weights that are all -inf (C66), since the log probability of taking out values that share a base value is -inf (C83),
    attributes that the query does not ask for stay at the old entities when a reference is reassigned (C84).
17. PClean: `--heldout` restarts row numbers and fails (C67, C74, also after inference); `to_txt` throws once a row has a value (C68, C74 for `--output`); `--samples` without `--output` throws (C74).
18. hirm: with a noisy relation whose name sorts before its base's, `--load` always fails; `--load` with `--heldout` saves wrong
    entity names; held-out observations of a base relation stop the resampling of its values (C71). In the mode irm the same
    order of names stops every run, and an empty held-out file is undefined behaviour (C73).
19. (read only) hirm_main uses `free` on objects made by `new`; pclean continues with a partially filled schema.
20. Entity moves do not keep the posterior once cluster parameters have been resampled: the parameters of a cluster that
    vanishes are lost, new clusters start with the default parameters, and the weights of the candidates ignore this (C79).
21. Observed values that are not numbers are not rejected: a boolean written as `true` is read as false, any other word as
    0 or false, trailing characters are ignored, and blank text is undefined behaviour (C87).
22. `logp` and `sample` disagree for an empty CRP whose alpha is not one (C93, see also C05), and for strings of maximal
    length in a Bigram (C93); for ZeroMeanNormal the scale of finding 9 makes them disagree whenever a datum is not 0 (C94), and
    so they do for GaussianEmission (C95); IdentityEmission gives probability one to values it never draws (C95);
    BigramStringEmission gives probability one to the empty string uncorrupted, since the end of the final insertions is not counted, but changes it with positive probability (C95);
    a sometimes-categorical emission from which everything added was removed again can count -1 changes and then takes the logarithm of 0 (C95).
