{"id": "C01", "title": "CRP seating is always a partition", "statement": "After any history of successful CRP::incorporate / CRP::unincorporate calls starting from a fresh CRP, N equals the number of seated customers, every seated customer is listed at exactly the one table its assignment names, and no table is empty. Incorporating a seated customer or unincorporating an absent one is refused.", "quantifier": "every finite sequence of incorporate/unincorporate calls with arbitrary customers and table numbers", "why_tests_cant": "A unit test fixes one history; the invariant must survive every interleaving of insertions and removals.", "anchors": ["cxx/distributions/crp.cc: CRP::incorporate, CRP::unincorporate", "cxx/distributions/crp.hh: CRP"]}
{"id": "C02", "title": "CRP unincorporate undoes incorporate", "statement": "Incorporating an absent customer at any table and then unincorporating it leaves the seating plan (tables, assignments, N) as it was; unincorporating a customer and re-incorporating it at its old table does too.", "quantifier": "every reachable seating plan, every customer and every table number", "why_tests_cant": "Needs all seating plans, including those where the table is created or destroyed by the call.", "anchors": ["cxx/distributions/crp.cc: CRP::incorporate, CRP::unincorporate"]}
{"id": "C03", "title": "CRP predictive weights", "statement": "With N>0 the table weights are the table sizes plus exactly one unused table carrying weight alpha, and they add up to N+alpha. The Gibbs weights of a seated customer are exactly the table weights the CRP would have with that customer removed (a lone customer's own table plays the role of the new table).", "quantifier": "every reachable seating plan with N>0, every alpha>0, every seated customer", "why_tests_cant": "Singleton tables, the highest table and gaps in table numbering interact; finite samples cannot cover all plans.", "anchors": ["cxx/distributions/crp.cc: CRP::tables_weights, CRP::tables_weights_gibbs, CRP::max_table"]}
{"id": "C04", "title": "CRP joint score is exchangeable and obeys the chain rule", "statement": "CRP::logp_score equals the sum of the predictive log probabilities CRP::logp assigned to the customers when they were seated one after the other, for any order of seating that yields the same partition; so the score does not depend on the order.", "quantifier": "every seating sequence, every alpha>0", "why_tests_cant": "Equality over all permutations and sizes of a formula using log-gamma.", "anchors": ["cxx/distributions/crp.cc: CRP::logp, CRP::logp_score, CRP::logp_new_table"]}
{"id": "C05", "title": "CRP predictive probabilities are normalised", "statement": "The probabilities exp(CRP::logp(t)) over the tables offered by CRP::tables_weights sum to one.", "quantifier": "every reachable seating plan and every alpha>0", "why_tests_cant": "A normalisation identity over all plans and real alpha.", "anchors": ["cxx/distributions/crp.cc: CRP::logp, CRP::tables_weights"]}
{"id": "C06", "title": "Domain membership equals CRP membership", "statement": "After any history of Domain::incorporate / unincorporate / set_cluster_assignment_gibbs, an item is in the domain exactly when it has a cluster; incorporating a present item again changes nothing, whatever the random draws were.", "quantifier": "every history, every sequence of random draws", "why_tests_cant": "Random table draws and repeated incorporation.", "anchors": ["cxx/domain.hh: Domain"]}
{"id": "C07", "title": "product enumerates the Cartesian product", "statement": "product(lists) returns each tuple choosing one element from every list exactly once per choice, in lexicographic order of positions, and nothing else.", "quantifier": "every non-empty vector of vectors", "why_tests_cant": "Any number of lists of any length.", "anchors": ["cxx/util_math.hh: product"]}
{"id": "C08", "title": "logsumexp and log_normalize are exact and overflow-safe", "statement": "On any non-empty vector of finite or -inf log weights, logsumexp is the logarithm of the sum of exponentials; every exponential it evaluates has a non-positive argument; after log_normalize the exponentials sum to one and ratios are unchanged.", "quantifier": "every non-empty weight vector (real arithmetic)", "why_tests_cant": "Identity over all real vectors and lengths.", "anchors": ["cxx/util_math.cc: logsumexp, log_normalize, log_choice"]}
{"id": "C09", "title": "Hyperparameter grids", "statement": "linspace/log_linspace return num points, start at start, end at stop when endpoint is requested, are evenly (log-)spaced and, for log_linspace, positive and increasing. Hence every grid-based hyperparameter transition leaves its hyperparameters positive and leaves the data statistics unchanged.", "quantifier": "every grid size above one, all real bounds, every random draw", "why_tests_cant": "Ranges over all reals and sizes and all draws.", "anchors": ["cxx/util_math.cc: linspace, log_linspace", "cxx/distributions/*.cc: transition_hyperparameters", "cxx/distributions/crp.cc: CRP::transition_alpha"]}
{"id": "C10", "title": "Distribution unincorporate undoes incorporate", "statement": "For every distribution type, incorporating a supported value and then unincorporating it restores the distribution's state; evaluating logp does not change the state.", "quantifier": "every state reachable from any multiset of values, every value", "why_tests_cant": "All multisets of values, including the empty-state reset of the Gaussian.", "anchors": ["cxx/distributions/*.cc: incorporate", "cxx/distributions/base.hh: Distribution::unincorporate"]}
{"id": "C11", "title": "Distribution state depends only on the multiset of data", "statement": "After any history of incorporate/unincorporate in which each removal removes a present value, the state of the distribution (and so its score) is a function of the remaining multiset of values only, and N is its size.", "quantifier": "every history, every order", "why_tests_cant": "Quantifies over all permutations and interleavings.", "anchors": ["cxx/distributions/*.cc: incorporate"]}
{"id": "C12", "title": "Gaussian running statistics are the batch statistics", "statement": "The running mean and variance of Normal, and the running second moment of ZeroMeanNormal, equal the mean, population variance and mean square of the data currently incorporated.", "quantifier": "every multiset of reals, every history of insertions and deletions", "why_tests_cant": "Welford updates in both directions for every data set.", "anchors": ["cxx/distributions/normal.cc: Normal::incorporate", "cxx/distributions/zero_mean_normal.cc: ZeroMeanNormal::incorporate"]}
{"id": "C13", "title": "Predictive probability is the score ratio", "statement": "For every conjugate distribution logp(x) equals logp_score after incorporating x minus logp_score before.", "quantifier": "every reachable state, positive hyperparameters, every supported value", "why_tests_cant": "Identity between two closed forms for all data.", "anchors": ["cxx/distributions/*.cc: logp, logp_score"]}
{"id": "C14", "title": "Discrete predictives are normalised", "statement": "For BetaBernoulli, DirichletCategorical and StringCat the predictive probabilities of all values in the support sum to one; every Bigram transition row does too.", "quantifier": "every reachable state, every positive hyperparameter", "why_tests_cant": "All states and category counts.", "anchors": ["cxx/distributions/beta_bernoulli.cc", "cxx/distributions/dirichlet_categorical.cc", "cxx/distributions/stringcat.cc", "cxx/distributions/bigram.cc"]}
{"id": "C15", "title": "Sampling does not change the model", "statement": "Drawing a sample from a Bigram leaves its statistics unchanged.", "quantifier": "every reachable state, every random draw", "why_tests_cant": "Depends on the random string length reaching max_length.", "anchors": ["cxx/distributions/bigram.cc: Bigram::sample"]}
{"id": "C16", "title": "nearest projects onto the support", "statement": "nearest(x) is always an acceptable value for incorporate, is x itself if x is acceptable, and no acceptable value is closer to x.", "quantifier": "every input value", "why_tests_cant": "All values and supports.", "anchors": ["cxx/distributions/dirichlet_categorical.cc: nearest", "cxx/distributions/stringcat.cc: nearest", "cxx/distributions/string_nat.cc: nearest"]}
{"id": "C17", "title": "Rejected parameter moves leave no trace", "statement": "A Metropolis step of a non-conjugate distribution ends with either exactly the proposed latents or exactly the previous ones, never a mixture, and never touches the incorporated data.", "quantifier": "every state and every random draw", "why_tests_cant": "All accept/reject outcomes.", "anchors": ["cxx/distributions/nonconjugate.hh: transition_theta", "cxx/distributions/skellam.cc"]}
{"id": "C18", "title": "ZeroMeanNormal samples from its own predictive", "statement": "The scale of the Student-t used by ZeroMeanNormal::sample is the one used by logp.", "quantifier": "every reachable state", "why_tests_cant": "All states; sampling tests only see moments.", "anchors": ["cxx/distributions/zero_mean_normal.cc: sample, logp"]}
{"id": "C19", "title": "Clean relation clusters always hold exactly their data", "statement": "After any history of incorporate, unincorporate, entity re-assignment and update_value, the clusters of a clean relation are exactly the cluster tuples of its stored observations, and the distribution in each cluster has incorporated exactly the multiset of the values stored for the tuples assigned to it.", "quantifier": "every history, every arity, repeated domains included, every random draw", "why_tests_cant": "The statistics are maintained incrementally; any history can desynchronise them.", "anchors": ["cxx/clean_relation.hh: CleanRelation"]}
{"id": "C20", "title": "Clean relation reverse index is exact", "statement": "has_observation(domain,item) is true exactly when some stored observation uses the item at a position of that domain; the per-entity index lists exactly those observations.", "quantifier": "every history", "why_tests_cant": "Index maintained incrementally under insert/delete.", "anchors": ["cxx/clean_relation.hh: CleanRelation::data_r, has_observation, cleanup_data"]}
{"id": "C21", "title": "Relation unincorporate undoes incorporate", "statement": "Unincorporating a just incorporated observation restores the relation's data, index and clusters, and changes no other observation.", "quantifier": "every reachable relation, items and value", "why_tests_cant": "All states, including cluster creation/deletion.", "anchors": ["cxx/clean_relation.hh: incorporate, unincorporate"]}
{"id": "C22", "title": "Gibbs scores are the true score differences", "statement": "For each candidate table, CleanRelation's reassignment log probability differs from that of any other candidate by the difference of the relation's logp_score after actually moving the entity to those tables.", "quantifier": "every reachable relation, entity and pair of candidate tables", "why_tests_cant": "Compares incremental computation against full recomputation in all states.", "anchors": ["cxx/clean_relation.hh: logp_gibbs_approx, logp_gibbs_exact"]}
{"id": "C23", "title": "Noisy observations stay linked to their base value", "statement": "In a noisy relation every observation is filed under the base tuple that is the prefix of its own, get_base_value returns the base relation's current value of that prefix, and the emission data is the pair of base value and noisy value.", "quantifier": "every history of noisy incorporate/unincorporate", "why_tests_cant": "Two relations are updated separately.", "anchors": ["cxx/noisy_relation.hh: NoisyRelation"]}
{"id": "C24", "title": "update_value equals remove plus insert", "statement": "update_value(items, v) has the same effect on the relation as unincorporating the observation and incorporating it with value v.", "quantifier": "every reachable clean or noisy relation", "why_tests_cant": "All states and values.", "anchors": ["cxx/clean_relation.hh: update_value", "cxx/noisy_relation.hh: update_value"]}
{"id": "C25", "title": "Latent value transitions keep statistics and data in step", "statement": "After transition_latent_value the base relation stores one of the candidate values, other stored values are unchanged, and every cluster's statistics again equal its stored data.", "quantifier": "every base relation, set of noisy relations and random draw", "why_tests_cant": "Incremental removal and insertion over many relations; the unit test checks only stored values.", "anchors": ["cxx/transition_latent_value.hh: transition_latent_value, latent_values_incremental_logp, choose_and_incorporate_value"]}
{"id": "C26", "title": "IRM keeps exactly the observed entities", "statement": "After any history of IRM::incorporate and IRM::unincorporate an entity belongs to a domain exactly when some relation still has an observation that uses it there.", "quantifier": "every schema, history and random draw", "why_tests_cant": "Cross-relation garbage collection over all histories.", "anchors": ["cxx/irm.cc: IRM::incorporate, IRM::unincorporate"]}
{"id": "C27", "title": "Entity Gibbs moves preserve the model invariants", "statement": "IRM::transition_cluster_assignment_item changes no observation, keeps every entity in exactly one cluster, changes only the moved entity's cluster, and keeps all relation clusters in step with the data, whatever table is drawn.", "quantifier": "every reachable IRM, entity and random draw", "why_tests_cant": "All states and draws.", "anchors": ["cxx/irm.cc: IRM::transition_cluster_assignment_item, IRM::single_step_irm_inference"]}
{"id": "C28", "title": "HIRM keeps every relation in exactly one IRM", "statement": "After construction and any history of relation moves, additions and removals, the relation CRP, the IRM table and the code tables agree: each relation has a unique code, sits at one table and is stored in the IRM of that table and in no other; no IRM is empty.", "quantifier": "every schema and history of operations and draws", "why_tests_cant": "Four tables updated by hand in each operation.", "anchors": ["cxx/hirm.cc: HIRM"]}
{"id": "C29", "title": "Moving a relation between IRMs loses no observation", "statement": "HIRM::transition_cluster_assignment_relation and set_cluster_assignment_gibbs leave the observations of every relation unchanged, whatever table is drawn.", "quantifier": "every reachable HIRM, relation and draw", "why_tests_cant": "Relation is destroyed and rebuilt.", "anchors": ["cxx/hirm.cc: transition_cluster_assignment_relation, set_cluster_assignment_gibbs"]}
{"id": "C30", "title": "A relation move that chooses the current table changes nothing", "statement": "If HIRM::transition_cluster_assignment_relation draws the relation's current table, no domain of any IRM gains or loses entities.", "quantifier": "every reachable HIRM, relation and draw", "why_tests_cant": "Temporary insertions into other IRMs must be undone.", "anchors": ["cxx/hirm.cc: transition_cluster_assignment_relation", "cxx/irm.cc: IRM::remove_relation"]}
{"id": "C31", "title": "Model construction accepts every well-founded schema", "statement": "Constructing a model from a schema succeeds, with base relations created before the relations that depend on them, exactly when every noisy relation's chain of bases ends in a clean relation of the schema; naming does not matter.", "quantifier": "every schema", "why_tests_cant": "All dependency graphs and name orders.", "anchors": ["cxx/hirm.cc: HIRM::HIRM", "cxx/irm.cc: IRM::IRM, IRM::add_relation"]}
{"id": "C32", "title": "Encoding of entities is a bijection", "statement": "calculate_encoding assigns to the entities of each domain the codes 0..n-1 bijectively, covers every observed entity, and encoding then decoding observations returns them.", "quantifier": "every schema and observation set", "why_tests_cant": "All inputs.", "anchors": ["cxx/util_io.cc: calculate_encoding, encode_observations"]}
{"id": "C33", "title": "Each observation is incorporated exactly once", "statement": "incorporate_observations incorporates every observation of every relation exactly once, whatever the iteration order of the relations.", "quantifier": "every schema, observation set and iteration order", "why_tests_cant": "Order of an unordered_map is not under test control.", "anchors": ["cxx/util_io.cc: incorporate_observations, incorporate_observations_relation"]}
{"id": "C34", "title": "Cluster files round-trip", "statement": "Loading the file written by to_txt returns the clusters, relations and items that were saved.", "quantifier": "every IRM and HIRM, names without whitespace", "why_tests_cant": "All contents; text formats.", "anchors": ["cxx/util_io.cc: to_txt, load_clusters_irm, load_clusters_hirm"]}
{"id": "C35", "title": "Observation files round-trip", "statement": "load_observations of the file written by write_observations returns the same observations.", "quantifier": "every observation set with comma-free fields", "why_tests_cant": "All contents.", "anchors": ["cxx/util_io.cc: load_observations, write_observations"]}
{"id": "C36", "title": "Tokenizer", "statement": "tokenize never loses or invents characters: rendering a token list and tokenizing it returns the list; comments and whitespace between tokens do not matter; only an unclosed string or a character that starts no token is refused.", "quantifier": "every character sequence without NUL characters", "why_tests_cant": "All strings.", "anchors": ["cxx/util_parse.cc: tokenize"]}
{"id": "C37", "title": "CSV round-trip", "statement": "from_csv(to_csv(df)) = df, and from_csv never yields columns of different lengths.", "quantifier": "every data frame", "why_tests_cant": "All contents.", "anchors": ["cxx/pclean/csv.cc: DataFrame::from_csv, DataFrame::to_csv"]}
{"id": "C38", "title": "Generated sample files contain the samples", "statement": "Writing the result of make_pclean_samples with to_csv produces one row per sample.", "quantifier": "every schema and number of samples", "why_tests_cant": "All schemas.", "anchors": ["cxx/pclean/pclean_lib.cc: make_pclean_samples", "cxx/pclean/csv.cc: DataFrame::to_csv"]}
{"id": "C39", "title": "Distribution and emission specs parse back", "statement": "parse of name(k=v,...) returns exactly the name and the arguments.", "quantifier": "every name and argument list without special characters", "why_tests_cant": "All strings.", "anchors": ["cxx/distributions/get_distribution.cc: DistributionSpec::DistributionSpec", "cxx/emissions/get_emission.cc: EmissionSpec::EmissionSpec"]}
{"id": "C40", "title": "Alignments spell both strings", "statement": "Every alignment returned by topk_alignments spells exactly the first string by its clean side and the second by its dirty side, at most k are returned, at least one for k>0, its cost is the cost of its steps, and costs are non-decreasing for non-negative step costs.", "quantifier": "every pair of strings, k and step cost function", "why_tests_cant": "All strings and costs.", "anchors": ["cxx/emissions/string_alignment.cc: topk_alignments"]}
{"id": "C41", "title": "edit distance is Levenshtein distance", "statement": "The cost of the best alignment under the edit_distance step cost is the least number of single-character insertions, deletions and substitutions turning one string into the other.", "quantifier": "every pair of strings", "why_tests_cant": "Optimality against all edit scripts.", "anchors": ["cxx/emissions/string_alignment.cc: topk_alignments, edit_distance"]}
{"id": "C42", "title": "SimpleStringEmission counts edits consistently", "statement": "Incorporating a (clean,dirty) pair records max(0,|dirty|-|clean|) insertions and max(0,|clean|-|dirty|) deletions, terminates, and unincorporating undoes it.", "quantifier": "every pair of strings", "why_tests_cant": "All strings.", "anchors": ["cxx/emissions/simple_string.hh: SimpleStringEmission"]}
{"id": "C43", "title": "Emission models are lawful distributions", "statement": "For every emission, unincorporate undoes incorporate and the state depends only on the multiset of pairs; the log probabilities are those of a probability (never above zero for discrete noise).", "quantifier": "every state and pair", "why_tests_cant": "All histories.", "anchors": ["cxx/emissions/*.hh"]}
{"id": "C44", "title": "propose_clean proposals are sensible", "statement": "propose_clean returns the mean (gaussian), a most frequent observation (sometimes), the per-position mode (simple_string), a maximum-likelihood state (categorical), and the only clean value that the emission can turn into the first observation (identity, bitflip).", "quantifier": "every list of observations", "why_tests_cant": "All lists.", "anchors": ["cxx/emissions/*.hh: propose_clean"]}
{"id": "C45", "title": "Domain layout of a class hierarchy", "statement": "GenDB lists, for each class, the domains of the classes it references (recursively) followed by the class itself.", "quantifier": "every acyclic class schema", "why_tests_cant": "All schemas.", "anchors": ["cxx/gendb.cc: compute_domains_for"]}
{"id": "C46", "title": "Reference indices name real references", "statement": "Each entry (i, field, j) of the reference index of a class says that the class at position i of the domain layout has a reference field of that name to the class at position j.", "quantifier": "every acyclic class schema of any depth", "why_tests_cant": "The unit test uses a schema of depth three.", "anchors": ["cxx/gendb.cc: compute_reference_indices_for"]}
{"id": "C47", "title": "Unique-entity rows do not share entities", "statement": "With new_rows_have_unique_entities each incorporated row gets entities no earlier row uses, and each relation's tuple is the one its primary key determines.", "quantifier": "every schema and history", "why_tests_cant": "All histories.", "anchors": ["cxx/gendb.cc: get_unique_entities_relation, sample_entities_relation, get_relation_items"]}
{"id": "C48", "title": "Reassigning a reference leaves no orphan entities", "statement": "When transition_reference removes the last reference to an entity, the references held by that entity are removed as well.", "quantifier": "every database", "why_tests_cant": "All databases.", "anchors": ["cxx/gendb.cc: transition_reference, unincorporate_from_entity_cluster"]}
{"id": "C49", "title": "Noisy relation domain check", "statement": "verify_noisy_relation_domains accepts exactly the schemas in which each noisy relation's domains extend its base's domains.", "quantifier": "every schema", "why_tests_cant": "All schemas.", "anchors": ["cxx/util_io.cc: verify_noisy_relation_domains"]}
{"id": "C50", "title": "IRM predictive is normalised", "statement": "For a relation with finite-support distribution, the predictive probabilities IRM::logp of all values at given entities sum to one, and logp does not change the model.", "quantifier": "every reachable IRM, every tuple of seen or unseen entities", "why_tests_cant": "Marginalisation over all cluster combinations.", "anchors": ["cxx/irm.cc: IRM::logp"]}
{"id": "C51", "title": "HIRM score and predictive factor over IRMs", "statement": "HIRM::logp_score is the relation CRP's score plus the sum of the IRM scores; HIRM::logp of observations is the sum of per-IRM logp over the observations grouped by owning IRM, so that it does not depend on their order.", "quantifier": "every HIRM and observation list", "why_tests_cant": "All groupings.", "anchors": ["cxx/hirm.cc: HIRM::logp, HIRM::logp_score"]}
{"id": "C52", "title": "Sampling fills each relation with n observations", "statement": "HIRM::sample_and_incorporate(n) adds exactly n distinct observations to each leaf relation and gives base relations the values they need.", "quantifier": "every schema, n and random draw", "why_tests_cant": "All draws.", "anchors": ["cxx/hirm.cc: sample_and_incorporate, sample_and_incorporate_relation"]}
{"id": "C53", "title": "Schema files parse back", "statement": "load_schema / read_schema of a well-formed rendering of a schema returns the schema; malformed input is rejected and never reads past the end of the line.", "quantifier": "every schema and every input text", "why_tests_cant": "All inputs.", "anchors": ["cxx/util_io.cc: load_schema", "cxx/pclean/io.cc: read_schema"]}
{"id": "C54", "title": "Relation types agree", "statement": "For every joint name accepted by the schema language, the distribution's and the emission's observation types agree, and every constructible spec has a prior of the declared type.", "quantifier": "every accepted name", "why_tests_cant": "Table consistency over the whole table.", "anchors": ["cxx/pclean/get_joint_relations.cc", "cxx/distributions/get_distribution.cc", "cxx/emissions/get_emission.cc"]}
{"id": "C55", "title": "merge_observations is union", "statement": "merge_observations returns all observations of both arguments per relation, in order, and nothing else.", "quantifier": "every pair of observation maps", "why_tests_cant": "All inputs.", "anchors": ["cxx/util_io.cc: merge_observations"]}
{"id": "C56", "title": "Unsupported values are rejected", "statement": "Incorporating, removing or scoring a value outside the support (category out of range, unknown string, too long string or character out of range) stops the program instead of corrupting counts.", "quantifier": "every state and every unsupported value", "why_tests_cant": "All values and states.", "anchors": ["cxx/distributions/dirichlet_categorical.cc", "cxx/distributions/stringcat.cc", "cxx/distributions/bigram.cc"]}
{"id": "C57", "title": "The predictive score is the gain in the relation's score", "statement": "For a new tuple of known entities, logp, cluster_or_prior_logp_from_items and cluster_or_prior_logp at the tuple's cluster return the same number, and incorporating the observation raises logp_score by exactly that number.", "quantifier": "every reachable clean relation, tuple and value", "why_tests_cant": "All states, including tuples that open a new cluster.", "anchors": ["cxx/clean_relation.hh: logp, cluster_or_prior_logp, cluster_or_prior_logp_from_items, incorporate, logp_score"]}
{"id": "C58", "title": "Sampling stores the value it returns", "statement": "sample_and_incorporate has the same effect as incorporating the value it returns, and get_value then returns that value.", "quantifier": "every relation, tuple and random draw", "why_tests_cant": "All draws.", "anchors": ["cxx/clean_relation.hh: sample_and_incorporate", "cxx/noisy_relation.hh: sample_and_incorporate"]}
{"id": "C59", "title": "The bigram string emission accounts for every character", "statement": "Incorporating a (clean, dirty) pair of printable strings with any weight always succeeds, adds the weight to the count, and adds the weight once per occurrence to the recorded clean characters and to the recorded dirty characters; unincorporate takes the same totals away. More likely alignments of the two strings should receive more of the weight.", "quantifier": "every state reachable by incorporate, unincorporate and hyperparameter transitions, every pair of printable strings and every weight", "why_tests_cant": "All strings, all alignments the search may return and all earlier histories.", "anchors": ["cxx/emissions/bigram_string.cc: incorporate, unincorporate, logp", "cxx/emissions/string_alignment.cc: topk_alignments"]}
{"id": "C60", "title": "Entity moves are weighed by the model's own score", "statement": "When IRM::transition_cluster_assignment_item draws a new cluster for an entity, the log weight of each candidate cluster is, up to one common constant, the logp_score the IRM has after moving the entity there.", "quantifier": "every reachable IRM, entity, candidate cluster and random draw", "why_tests_cant": "Needs the change of the score for all states and candidates.", "anchors": ["cxx/irm.cc: IRM::transition_cluster_assignment_item, IRM::logp_score"]}
{"id": "C61", "title": "Inference on a hierarchical model never fails", "statement": "In every state a program can reach, moving any relation to any table, a sweep over all relations and any number of iterations of inference_hirm (with observed base relations) run to the end without a failed assertion, exception or undefined behaviour, whatever is drawn; afterwards all observations are as before, the clusters and indexes are exact and every noisy relation is attached to the current object of its base. incorporate accepts exactly the new tuples of the right arity whose base value is present.", "quantifier": "every history of valid calls, relation, table, iteration order and random draw", "why_tests_cant": "The failures depend on which relations share tables and on the order of moves; pointers dangle only for some histories.", "anchors": ["cxx/hirm.cc: HIRM::transition_cluster_assignment_relation, set_cluster_assignment_gibbs, update_base_relation, incorporate, unincorporate", "cxx/inference.cc: inference_hirm"]}
{"id": "C62", "title": "The HIRM schema of a PClean program", "statement": "Constructing a GenDB makes one unobserved clean relation over the class's domains for each scalar variable and, for each query field, an observed relation that is connected by a chain of noisy relations, one per class on the path, to the queried variable's relation, and no other relation; the construction succeeds and the resulting schema is accepted by HIRM whatever is drawn, each noisy relation having the domains of its base first.", "quantifier": "every well-named acyclic PClean schema, every record class, every query and both construction flags", "why_tests_cant": "All schemas, path lengths and name orders.", "anchors": ["cxx/gendb.cc: make_relations_for_queryfield, make_hirm_schema", "cxx/hirm.cc: HIRM::HIRM"]}
{"id": "C63", "title": "Reference indices of query relations are complete", "statement": "For the relation of each query field, the reference indices list exactly the references that hold between the entities of a tuple: those inside the layout of the queried variable's class and those of the classes on the path.", "quantifier": "every PClean schema, query field and both construction flags", "why_tests_cant": "All path lengths and schemas.", "anchors": ["cxx/gendb.cc: make_relations_for_queryfield, make_hirm_schema, compute_reference_indices_for"]}
{"id": "C64", "title": "Incorporating rows keeps a GenDB consistent", "statement": "Incorporating rows with new row numbers succeeds whatever is drawn (unless two reference identifiers collide) and leaves every earlier value and reference in place. Afterwards the entity CRPs hold exactly the references that are stored, only rows hold references without being referenced, and the relation of a query field has exactly the values of the rows, each at the tuple of entities to which the references of the row lead.", "quantifier": "every PClean schema, history of rows, mode (new or sampled entities) and random draw", "why_tests_cant": "All schemas and histories.", "anchors": ["cxx/gendb.cc: GenDB::incorporate, incorporate_query_relation, sample_and_incorporate_for_class, sample_class_ancestors, sample_and_incorporate_reference, get_reference_id"]}
{"id": "C65", "title": "Reassigning references keeps entities and references in agreement", "statement": "However often and in whatever order incorporate, transition_reference and inference_gendb are called, the entity CRPs hold exactly the references that are stored and no reference gets lost. A call changes no other reference: the one it reassigns keeps its entity, or gets one to which another reference leads, or gets an entity to which no reference led, and a reference that is added belongs to such a new entity or to one that was made for it.", "quantifier": "every PClean schema, rows, history of calls that return and random draws", "why_tests_cant": "All histories and draws.", "anchors": ["cxx/gendb.cc: transition_reference, unincorporate_reference, unincorporate_singleton, reincorporate_new_refval, transition_reference_class_and_ancestors", "cxx/inference.cc: inference_gendb"]}
{"id": "C66", "title": "Each reference can be reassigned", "statement": "transition_reference of a stored reference returns, with one of the candidates, whatever the rows and the draws are.", "quantifier": "every PClean schema, rows and history", "why_tests_cant": "All databases.", "anchors": ["cxx/gendb.cc: get_domain_inds, transition_reference, unincorporate_reference_relation", "cxx/util_math.cc: sample_from_logps"]}
{"id": "C67", "title": "The rows of a table are stored", "statement": "incorporate_observations fills a new database with the rows of a table: it returns, whatever the draws are, and afterwards the relation of each query field has exactly the values of the non-empty cells of the column of that name, each at the tuple to which the references of its row (numbered from zero) lead. Columns that the query does not ask for have no effect. If a cell of a query column is not printable, or a column is shorter than the first one, it does not return. It does not return either if the database has a value for the same row number and query field.", "quantifier": "every PClean schema, table, parser of the cells and sequence of draws", "why_tests_cant": "All tables: missing cells, columns that are not asked for, any number of rows.", "anchors": ["cxx/pclean/pclean_lib.cc: incorporate_observations", "cxx/gendb.cc: incorporate"]}
{"id": "C68", "title": "The clusters of a database can be saved", "statement": "After rows have been incorporated, make_dummy_encoding_from_gendb gives each entity that a relation has clusters for a name, so that to_txt writes the clusters.", "quantifier": "every PClean schema, table and history", "why_tests_cant": "All databases: the names must cover all classes.", "anchors": ["cxx/pclean/pclean_lib.cc: make_dummy_encoding_from_gendb", "cxx/util_io.cc: to_txt", "cxx/pclean/pclean.cc: main"]}
{"id": "C69", "title": "Inference on a database does not touch its data", "statement": "However often and in whatever order incorporate, transition_reference, transition_reference_class_and_ancestors and inference_gendb are called, the relation of a query field has exactly the values of the rows: no value is lost, changed, moved to another row or invented. Each value is at the tuple that the references of its row now lead to.", "quantifier": "every PClean schema with complete reference indices for the query, table, history of reassignments and inference iterations that returned, and every draw", "why_tests_cant": "All histories and draws: values are taken out, stored under new tuples for every candidate entity, put back, scored and taken out again.", "anchors": ["cxx/gendb.cc: transition_reference, unincorporate_reference, update_reference_items, incorporate_reference, reincorporate_new_refval", "cxx/inference.cc: inference_gendb"]}
{"id": "C70", "title": "With the shipped distributions a session never fails", "statement": "Take a schema over the repository's own distributions and emissions in which each noisy relation has at least the domains of its base, its noise takes the values of the base, and the distributions of the bases can be sampled. After any sequence of calls that construct the HIRM, load observations, add and remove single observations, move relations, run inference and sample, the clusters and indexes are exact and every stored value is one that its distribution or emission accepts; and in each such state these calls return whatever is drawn: loading observations of relations that are not bases, adding a new tuple whose base has a value, moving relations, inference (with observed bases and noise that can be undone), sampling, and logp of clean tuples, which gives the same number whatever is drawn and changes nothing.", "quantifier": "every schema, history of user calls, iteration order and random draw", "why_tests_cant": "All schemas, all histories and all draws; failures need a particular mixture of distributions, moves and orders.", "anchors": ["cxx/hirm.cc", "cxx/distributions/get_distribution.cc: get_prior", "cxx/emissions/get_emission.cc: get_prior", "cxx/util_io.cc: incorporate_observations", "cxx/inference.cc: inference_hirm", "cxx/emissions/sometimes.hh: Sometimes"]}
{"id": "C71", "title": "A run of hirm saves what inference has found", "statement": "When a run of the program hirm has read its files and done its iterations, it saves the clusters: whatever was drawn, each entity in a cluster has its name in the input files, and to_txt does not fail. If the names have no white space and are not special, the option load reads the file back, with exactly the relation clusters and the entity clusters that the model had. Clusters that were loaded and not changed are saved as they were, and held-out observations are scored but do not influence the model.", "quantifier": "all texts of the schema, observation, held-out and cluster files, all numbers of iterations and all draws", "why_tests_cant": "All input files and draws; entities are numbered by separate passes over different files.", "anchors": ["cxx/hirm_main.cc: main", "cxx/util_io.cc: to_txt, from_txt, load_clusters_hirm, merge_observations", "cxx/inference.cc: inference_hirm"]}
{"id": "C72", "title": "A run of hirm with proper files never fails", "statement": "If the schema file can be read and is sound, every line of the observation file is for existing entities of a relation, states a value of that relation and is the only one for its tuple, and the lines of the held-out file do the same, then a run of the program hirm does not fail, for all random choices and all orders of unordered containers. The model that it saves has the values of the observation file, each for the entities of its line, and no other values of observed relations. The log probability that it prints is a finite number, and is that of exactly the held-out lines. It writes samples if they are asked for.", "quantifier": "all schema, observation and held-out files that satisfy the conditions, all numbers of iterations and samples, and all draws", "why_tests_cant": "Failures depend on draws, hash orders and combinations of relations and domains; tests run a few files with one seed.", "anchors": ["cxx/hirm_main.cc: main", "cxx/util_io.cc: load_schema, load_observations, merge_observations, calculate_encoding, incorporate_observations, logp, write_observations", "cxx/hirm.cc: HIRM::HIRM, logp, sample_and_incorporate", "cxx/inference.cc: inference_hirm"]}
{"id": "C73", "title": "The mode irm of hirm works like the mode hirm", "statement": "In the mode irm, a run of the program hirm that has done its iterations saves the clusters of its model, with the names of the input files, and the option load reads them back. If the files are as in C72, the run does not fail, the model has exactly the values of the observations, and the log probability that is printed is a finite number, that of the held-out lines. Neither the alphabetical order of the names of the relations nor an empty held-out file matters.", "quantifier": "all texts of the schema, observation, held-out and cluster files, all numbers of iterations and all draws", "why_tests_cant": "All input files, names and draws; tests run a few files with one seed.", "anchors": ["cxx/hirm_main.cc: main", "cxx/inference.cc: inference_irm", "cxx/irm.cc: IRM::IRM, single_step_irm_inference, logp", "cxx/util_io.cc: to_txt, from_txt, load_clusters_irm, incorporate_observations, logp"]}
{"id": "C74", "title": "A run of pclean takes in its table", "statement": "If the schema file describes classes without cycles whose variables have distributions that can be sampled and noise that takes their values, and the cells of the query columns of the table are values of their variables, then a run of the program pclean reads the files and incorporates all rows, whatever is drawn. When its iterations are done, the relation of each query field has exactly the values that the cells of its column mean, each at the tuple to which the references of its row now lead. The run then ends: with the option output the clusters are saved, with the option heldout the log probability of the held-out rows is printed, and with the option samples these are written.", "quantifier": "all schema files, tables, held-out tables, options and draws", "why_tests_cant": "All files, numbers of iterations and draws; a test runs one file with one seed.", "anchors": ["cxx/pclean/pclean.cc: main", "cxx/pclean/pclean_lib.cc: incorporate_observations, make_pclean_samples", "cxx/pclean/io.cc: read_schema_file", "cxx/pclean/csv.cc: from_csv", "cxx/gendb.cc: GenDB::GenDB, incorporate, transition_reference", "cxx/inference.cc: inference_gendb, inference_hirm"]}
{"id": "C75", "title": "The clusters of a database stay in order", "statement": "Whatever the schema and the distributions of a database are, and whatever calls of incorporate, of the transitions of references and classes and of inference have returned, in whatever order: every relation is in exactly one component, the entities of a domain of a component are exactly those that have a cluster, an entity is in exactly one cluster, no cluster is empty, the clusters count their entities, and every value that a relation stores, observed or latent, is at a tuple whose entities all have a cluster.", "quantifier": "all schemas, distributions, emissions, rows, draws and histories of calls that returned", "why_tests_cant": "Moves of references take tuples out of relations and put others in, and clusters and components come and go with them; tests look at a few of these states.", "anchors": ["cxx/gendb.cc: GenDB::GenDB, incorporate, transition_reference, transition_reference_class_and_ancestors, update_reference_items, unincorporate_from_domain_cluster_relation", "cxx/inference.cc: inference_gendb, inference_hirm", "cxx/hirm.cc: incorporate, transition_cluster_assignments, sample_and_incorporate_relation", "cxx/irm.cc: add_relation, incorporate, unincorporate, transition_cluster_assignment_item", "cxx/domain.cc: incorporate, unincorporate, set_cluster_gibbs", "cxx/util_distribution_variant.cc"]}
{"id": "C76", "title": "Loading a model restores what was saved", "statement": "A model that hirm (mode hirm or irm) loads from a cluster file has each listed relation and entity in the cluster that the file says; entities of the observations that the file does not list are in some cluster, and nothing else is. If the file was saved by a run with the same schema and observations, the loaded model has exactly the clusters of that run. Whatever inference does, at the end of a run each relation has exactly the tuples of its observations, and a base relation those of its noisy relations too.", "quantifier": "every schema, observation file, cluster file that is accepted, number of iterations, iteration order and random draw", "why_tests_cant": "The clusters that are saved depend on the whole history of inference, and the codes of the entities on the iteration order of hash maps in both runs.", "anchors": ["cxx/util_io.cc: from_txt, load_clusters_hirm, load_clusters_irm, to_txt, incorporate_observations", "cxx/hirm_main.cc: main", "cxx/inference.cc: inference_hirm, inference_irm"]}
{"id": "C77", "title": "The approximate Gibbs score is a sum of predictive probabilities", "statement": "logp_gibbs_approx of an observed entity and any table returns and leaves the relation exactly as it was. It is a sum over the entity's observed tuples: at the current table of what logp_score loses when the observation is taken out, at another table of the log probability of the value at the cluster that the tuple then has. If the tuples lie in different clusters it is the score that logp_gibbs_exact reports.", "quantifier": "every reachable relation, distribution, observed entity, table and iteration order", "why_tests_cant": "The function mutates clusters and undoes it for each tuple; that nothing is left behind, and which cluster each tuple is scored at, must hold in all states.", "anchors": ["cxx/clean_relation.hh: logp_gibbs_approx, logp_gibbs_approx_current, logp_gibbs_approx_variant, logp_gibbs_exact", "cxx/noisy_relation.hh: logp_gibbs_approx"]}
{"id": "C78", "title": "A cluster file that fits is accepted, and a saved one always fits", "statement": "hirm --mode=hirm --load accepts every cluster file that lists each relation of the schema in exactly one cluster, and for it entities that occur in the observations, of domains of its relations, each at most once, with numbers that are not negative: whatever is drawn, the run does not fail, and its model has exactly the values of the observations. What a run has saved fits in this sense, so a later run with the same schema and observations loads it, and starts with the clusters the first run ended with. The same holds of --mode=irm, with one set of clusters of entities.", "quantifier": "every schema, observation and cluster file, saving run, iteration order and draw", "why_tests_cant": "from_txt builds the tables of relations and entities step by step, with assertions and removals on the way; whether one fails depends on the file, the order of the names and the iteration order.", "anchors": ["cxx/util_io.cc: from_txt, load_clusters_hirm, to_txt, incorporate_observations", "cxx/hirm_main.cc: main", "cxx/hirm.cc: HIRM::set_cluster_assignment_gibbs, HIRM::add_relation, HIRM::add_relation_to_irm"]}
{"id": "C79", "title": "Entity moves keep the posterior", "statement": "The logp_score of an IRM depends on its partitions of the entities, not on the numbers of the clusters. A call of transition_cluster_assignment_item draws one of finitely many partitions, and for the probability proportional to exp(logp_score) the flow from any state to any other equals the flow back (detailed balance), so that repeated moves keep this distribution.", "quantifier": "every reachable IRM, entity and move", "why_tests_cant": "Detailed balance is a statement about all states and the probabilities of all draws; tests only see samples.", "anchors": ["cxx/irm.cc: transition_cluster_assignment_item, logp_score", "cxx/clean_relation.hh: logp_gibbs_exact, set_cluster_assignment_gibbs", "cxx/crp.cc: tables_weights_gibbs", "cxx/util_math.cc: log_choice"]}
{"id": "C80", "title": "Relation moves are weighed by the model's own score", "statement": "logp_score of an HIRM is the score of the partition of the relations, plus the scores of all relations of the schema, each counted once, plus the scores of the partitions of the entities. When HIRM::transition_cluster_assignment_relation draws a new table for a relation, the candidates are all tables that have relations and one new table (none if the relation is alone at its table), and the log weight of each candidate is, up to one common constant, the logp_score the HIRM has after moving the relation there, without the partitions of the entities (new entities are seated at random while the candidates are scored).", "quantifier": "every HIRM that a history of calls can reach, relation, candidate and draw", "why_tests_cant": "The weights are computed on temporary copies of the relation in all IRMs, and the relation is then removed from all but one; which scores are compared is not visible in the result.", "anchors": ["cxx/hirm.cc: HIRM::transition_cluster_assignment_relation, logp_score, add_relation_to_irm", "cxx/crp.cc: tables_weights_gibbs", "cxx/irm.cc: logp_score"]}
{"id": "C81", "title": "Taking values out of a database loses nothing", "statement": "unincorporate_reference and unincorporate_singleton lose no value of any relation, observed or latent: at each tuple the value is as before and not stored, or it is gone and stored. unincorporate_reference stores only values of tuples with the entity, and no query field keeps a value at a tuple with the entity where the reference leads on. unincorporate_singleton leaves the attributes of entities that are still in use alone, and takes out the attributes of the entity if it is not in use. incorporate_reference puts exactly the stored values back: it undoes each of the two, and both one after the other.", "quantifier": "every PClean schema, distribution, history of calls that returned, reference and random draw", "why_tests_cant": "The functions recurse over base relations and over the tuples of an entity in any order; all states.", "anchors": ["cxx/gendb.cc: unincorporate_reference, unincorporate_reference_relation, unincorporate_singleton, unincorporate_reference_relation_singleton, incorporate_reference, incorporate_reference_relation"]}
{"id": "C82", "title": "Entities that lose their clusters are recorded and get them back", "statement": "When unincorporate_reference and unincorporate_singleton take entities out of the clusters of their domains, the record of them is right: each entity is in the cluster it was in and not recorded, or it was in a cluster, is in none now and that cluster is recorded. No recorded entity is used by a value, and the entity that was referred to keeps a cluster in the components concerned only if a value there uses it. In between the clusters are in order: every value is about entities that are in clusters. If the entities go back as recorded and then the stored values are incorporated, every value and every cluster is what it was before.", "quantifier": "every PClean schema, distribution, history of calls that returned, reference and random draw", "why_tests_cant": "The functions recurse through references and relations that share components and domains; all states.", "anchors": ["cxx/gendb.cc: unincorporate_reference, unincorporate_from_domain_cluster_relation, unincorporate_singleton, reincorporate_new_refval, incorporate_reference"]}
{"id": "C83", "title": "Taking out a reference reports what the score loses", "statement": "The log probability that unincorporate_reference returns is the difference of the database's logp_score before and after the call, and so is that of unincorporate_singleton, called when no reference to the entity is left. When the last reference to an entity is taken out, leaves the entity CRP and then the entity is taken out, the two returned numbers together are what the score of the relations loses. The weights of the candidates of a reference rest on this.", "quantifier": "every PClean schema, history of calls that returned, reference and random draw; distributions and emissions whose logp is the difference of logp_score", "why_tests_cant": "The functions recurse through references and base relations, several values share clusters and entities leave CRPs on the way; all states.", "anchors": ["cxx/gendb.cc: unincorporate_reference, unincorporate_reference_relation, unincorporate_from_domain_cluster_relation, unincorporate_singleton, unincorporate_reference_relation_singleton, logp_score", "cxx/noisy_relation.hh: cluster_or_prior_logp_from_items"]}
{"id": "C84", "title": "The attributes of an entity are found at the entities that its references lead to", "statement": "In a database, the value of an attribute of an entity is stored at the tuple that ends with the entity and whose other entities are those that its references lead to, so that an attribute can be found by following references. This holds after every call of incorporate, transition_reference and inference.", "quantifier": "every PClean schema, history of calls that returned and random draw", "why_tests_cant": "References change during inference, and the tuples of all relations that depend on them have to change with them; all schemas and histories.", "anchors": ["cxx/gendb.cc: incorporate, sample_and_incorporate_for_class, get_relation_items, get_domain_inds, transition_reference"]}
{"id": "C85", "title": "When a reference gets another value, stored values move to the tuples of the same entities", "statement": "update_reference_items returns exactly the values it is given, for the same entities of the same relations, each at the tuple that the references lead to once the reference has the new value: none is lost, doubled or mixed up with another, and if the value of the reference is the one it has, nothing changes. It returns whenever the entities that references lead to from the new one have all their references. In particular, whatever calls came before, the values of query fields that unincorporate_reference takes out are returned for the same rows.", "quantifier": "every PClean schema, state of the references, map of stored values, reference, new value and history of calls that returned", "why_tests_cant": "Tuples are rebuilt by following references through all classes, and two tuples could become one; all schemas, references and stored values.", "anchors": ["cxx/gendb.cc: update_reference_items, get_relation_items, unincorporate_reference"]}
{"id": "C86", "title": "The weight of a candidate of a reference is what its values are worth", "statement": "When a reference is reassigned, the log weight of each entity that may become its value is the logarithm of the entity's weight under the entity CRP plus the score that the relations gain when the values that depend on the reference are put at the tuples of that entity, compared to the score without those values.", "quantifier": "every database, reference, candidate, distribution, emission and random draw, and any number of candidates tried before", "why_tests_cant": "The number is computed backwards, by putting all values in, which samples clusters, and taking them out one at a time through nested recursions; a value that was paired with another base value, or a cluster that lost a value, would give a wrong weight silently. All states and draws.", "anchors": ["cxx/gendb.cc: transition_reference, incorporate_stored_items, unincorporate_reference, update_reference_items"]}
{"id": "C87", "title": "Values are read as they are written", "statement": "Reading the text of a value gives the value back: integers and booleans are read from the decimal numeral at the start of the text, with blanks and a sign before it and whatever follows it, a boolean is true if the number is not zero, strings are taken as they are, and a written value is read back as the same value. Text that is no value is rejected.", "quantifier": "every text, integer, boolean, string and real number that the stream reads back", "why_tests_cant": "All texts: signs, blanks, leading zeros, trailing characters, words and empty text.", "anchors": ["cxx/relation.hh: from_string", "cxx/relation.cc: from_string", "cxx/hirm.cc: incorporate_observations"]}
{"id": "C88", "title": "The present value of a reference competes with what it is worth", "statement": "When a reference is reassigned, each candidate (the entities that other references name and one new entity) has one log weight. The one of the present value is the logarithm of its weight under the entity CRP plus what the score loses when everything that depends on the reference is taken out. The candidate that becomes the value is one whose log weight is a number, and each candidate can be put back.", "quantifier": "every database, reference, distribution, emission and random draw", "why_tests_cant": "The weights are collected in a list, in the order of a map that is rebuilt for every reference, next to notes kept by candidate; a weight in the wrong place, a candidate without notes or a part of the log probability that is left out would bias the choice silently. All states and draws.", "anchors": ["cxx/gendb.cc: transition_reference, reincorporate_new_refval", "cxx/util_math.cc: sample_from_logps", "cxx/distributions/crp.cc: tables_weights_gibbs"]}
{"id": "C89", "title": "Choices are drawn with the probabilities their log weights stand for", "statement": "log_choice and sample_from_logps return each index with probability exp(log weight) divided by the sum of these; an index whose log weight is minus infinity is never returned; adding the same number to all log weights changes nothing; and no exponential overflows, however large the log weights are.", "quantifier": "every vector of finite or -inf log weights of which one is finite (real arithmetic)", "why_tests_cant": "All lengths and weights, and probabilities rather than outcomes of one draw.", "anchors": ["cxx/util_math.cc: choice, log_choice, sample_from_logps, log_normalize, logsumexp"]}
{"id": "C90", "title": "Hyperparameters are drawn from their posterior on the grid", "statement": "transition_hyperparameters of each distribution, and transition_alpha of a CRP, leave the data as it is and set the hyperparameters to a point of the grid with probability proportional to exp(logp_score) at that point (for Skellam, to the joint density of the latent rates and the data), each point of the grid being possible. Hence the flow between two points of the grid is the same in both directions under the posterior.", "quantifier": "every state of every distribution and CRP (real arithmetic)", "why_tests_cant": "The probabilities of all points for all data; a score computed with a stale hyperparameter, or a point paired with the score of another, gives plausible samples from a wrong distribution.", "anchors": ["cxx/distributions/beta_bernoulli.cc: transition_hyperparameters", "cxx/distributions/dirichlet_categorical.cc: transition_hyperparameters", "cxx/distributions/normal.cc: transition_hyperparameters", "cxx/distributions/zero_mean_normal.cc: transition_hyperparameters", "cxx/distributions/stringcat.cc: transition_hyperparameters", "cxx/distributions/bigram.cc: transition_hyperparameters", "cxx/distributions/skellam.cc: transition_hyperparameters, lognormal_logp", "cxx/distributions/crp.cc: transition_alpha"]}
{"id": "C91", "title": "The Metropolis step keeps the posterior", "statement": "transition_theta of the Skellam distribution accepts a proposal with probability min(1, ratio of the likelihoods of all data held). It satisfies detailed balance with respect to the posterior of the latent rates, which is the log-normal prior of the current hyperparameters weighted with that likelihood, and so leaves this posterior unchanged.", "quantifier": "every history of incorporate, unincorporate, logp, transition_hyperparameters and transition_theta, all measurable sets of rates (real arithmetic)", "why_tests_cant": "A statement about the distribution of the outcome of a step for all data; a wrong sign or a missing count gives a chain that still moves and looks plausible.", "anchors": ["cxx/distributions/nonconjugate.hh: transition_theta, logp_score", "cxx/distributions/skellam.cc: init_theta, store_latents, set_latents, logp"]}
{"id": "C92", "title": "Skellam samples what it reports", "statement": "sample returns each integer with the probability exp(logp) of that integer; these probabilities are those of the Skellam distribution with the current rates, and they add up to one over all integers.", "quantifier": "all positive rates and all integers (real arithmetic)", "why_tests_cant": "Infinitely many integers and all rates; a swapped pair of rates or a wrong order of the Bessel function is invisible in a test of a symmetric case.", "anchors": ["cxx/distributions/skellam.cc: sample, logp"]}
{"id": "C93", "title": "The discrete distributions sample what they report", "statement": "sample of BetaBernoulli, DirichletCategorical, StringCat, Bigram and CRP returns each value with the probability exp(logp) of that value in the current state.", "quantifier": "every state reached by any history, every value (real arithmetic)", "why_tests_cant": "Probabilities rather than outcomes, for all data; a Bigram sample is a run of unbounded length in which each draw depends on the earlier ones.", "anchors": ["cxx/distributions/beta_bernoulli.cc: sample, logp", "cxx/distributions/dirichlet_categorical.cc: sample, logp", "cxx/distributions/stringcat.cc: sample, logp", "cxx/distributions/bigram.cc: sample, logp", "cxx/distributions/crp.cc: sample, logp"]}
{"id": "C94", "title": "The continuous distributions sample the density they report", "statement": "sample of Normal and ZeroMeanNormal returns a value drawn from the distribution whose density at x is exp(logp(x)) in the current state; these densities integrate to one.", "quantifier": "every state reached by any history (real arithmetic, exact draws of the standard library's distributions)", "why_tests_cant": "A statement about a continuous distribution, obtained by integrating over the latent precision and mean, for all data; a test can only compare finitely many draws.", "anchors": ["cxx/distributions/normal.cc: sample, logp, posterior_hypers", "cxx/distributions/zero_mean_normal.cc: sample, logp, log_t_distribution"]}
{"id": "C95", "title": "Noise models corrupt values with the probabilities they report", "statement": "sample_corrupted(clean) of an emission returns each value dirty with the probability (or density) exp(logp({clean, dirty})) in the current state.", "quantifier": "every emission, every state reached by any history, every clean and dirty value (real arithmetic, exact draws)", "why_tests_cant": "Probabilities and densities rather than outcomes, for all data; Sometimes composes with any base emission.", "anchors": ["cxx/emissions/bitflip.hh: sample_corrupted, logp", "cxx/emissions/identity.hh: sample_corrupted, logp", "cxx/emissions/categorical.hh: sample_corrupted, logp", "cxx/emissions/sometimes.hh: sample_corrupted, logp", "cxx/emissions/gaussian.hh: sample_corrupted, logp", "cxx/emissions/simple_string.hh: sample_corrupted, logp", "cxx/emissions/bigram_string.cc: sample_corrupted, logp"]}
{"id": "C96", "title": "The hyperparameters of a noise model are drawn from their joint posterior", "statement": "transition_hyperparameters of an emission leaves its data as it is and sets all its hyperparameters together to a point of the product of their grids with probability proportional to exp(logp_score) of the emission at that point; each point is possible. For Sometimes this holds for the coin and the base emission together, over any base emission that has the property.", "quantifier": "every emission and every state (real arithmetic)", "why_tests_cant": "The joint probabilities of all points for all data; the parts of an emission are updated one after the other, and a part that is forgotten or scored with the data of another gives plausible samples from a wrong distribution.", "anchors": ["cxx/emissions/categorical.hh: transition_hyperparameters, logp_score", "cxx/emissions/sometimes.hh: transition_hyperparameters, logp_score", "cxx/emissions/gaussian.hh: transition_hyperparameters, logp_score", "cxx/emissions/simple_string.hh: transition_hyperparameters, logp_score", "cxx/emissions/bigram_string.cc: transition_hyperparameters, logp_score", "cxx/emissions/bitflip.hh: transition_hyperparameters", "cxx/emissions/identity.hh: transition_hyperparameters"]}
