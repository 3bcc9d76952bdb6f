{"id": "C01", "title": "Bloom filter has no false negatives", "statement": "After any sequence of add, clear and set calls, lookup(e) returns true for every element e that was added after the last clear or set.", "quantifier": "every filter size, every family of in-range hash functions, every history of add/clear/set calls and every element", "why_tests_cant": "Tests use a couple of hash functions and a few elements; the guarantee must survive every hash collision pattern and every history.", "anchors": ["src/bloom_filter.hpp: BloomFilter::add", "src/bloom_filter.hpp: BloomFilter::lookup", "src/bloom_filter.hpp: BloomFilter::clear", "src/bloom_filter.hpp: BloomFilter::set"]}
{"id": "C02", "title": "Bloom filter answers exactly the collision condition", "statement": "On a filter that was constructed or cleared and then only added to, lookup(e) is true if and only if every hash position of e is also a hash position of some added element; so a false positive occurs exactly on a full collision, never otherwise.", "quantifier": "every list of added elements, every element looked up, every in-range hash family", "why_tests_cant": "Tests can show one false positive or one true negative; they cannot show that no other reason for a wrong answer exists.", "anchors": ["src/bloom_filter.hpp: BloomFilter::add", "src/bloom_filter.hpp: BloomFilter::lookup", "src/bloom_filter.hpp: BloomFilter::get_bit", "src/bloom_filter.hpp: BloomFilter::set_bit_to_one"]}
{"id": "C03", "title": "clear empties a Bloom filter", "statement": "After clear, lookup returns false for every element, and all later answers are the same as those of a newly constructed filter receiving the same calls.", "quantifier": "every earlier history and every later history", "why_tests_cant": "Residual state would only show for particular histories.", "anchors": ["src/bloom_filter.hpp: BloomFilter::clear", "src/bloom_filter.hpp: BloomFilter::BloomFilter"]}
{"id": "C04", "title": "set loads exactly the given bits into a Bloom filter", "statement": "After set(new_bits), lookup(e) is true if and only if every hash position of e designates a byte of new_bits whose lowest bit is 1; exactly bit_size bytes of the argument are read.", "quantifier": "every byte array of at least bit_size bytes and every element", "why_tests_cant": "Tests load one array; the layout has to be understood for all.", "anchors": ["src/bloom_filter.hpp: BloomFilter::set", "src/bloom_filter.hpp: BloomFilter::lookup"]}
{"id": "C05", "title": "Bloom filter content does not depend on insertion order or repetition", "statement": "Two sequences of add calls that contain the same set of elements, in any order and with any repetitions, leave filters that answer every lookup identically.", "quantifier": "every two lists of elements with the same set of members, every starting content", "why_tests_cant": "The number of orders is factorial; tests fix one.", "anchors": ["src/bloom_filter.hpp: BloomFilter::add"]}
{"id": "C06", "title": "Bloom filter never touches memory outside its array and aborts on bad hashes", "statement": "If all hash functions return indices below bit_size, no call fails an assertion or accesses the array out of bounds; if a hash value is out of range for an element, add of that element stops at an assertion instead of writing outside of the array.", "quantifier": "every hash family (including values above INT_MAX), every history", "why_tests_cant": "An out of bounds index only shows with the particular hash value that triggers it.", "anchors": ["src/bloom_filter.hpp: BloomFilter::set_bit_to_one", "src/bloom_filter.hpp: BloomFilter::get_bit"]}
{"id": "C07", "title": "Cuckoo filter stored entries do not interfere", "statement": "Storing a fingerprint in one slot of one bucket makes that slot read back exactly this fingerprint (when it fits in entry_size bits) and leaves every other slot of every bucket unchanged.", "quantifier": "every geometry (bucket count, bucket size, entry size up to 8), every slot pair, every fingerprint", "why_tests_cant": "Bit packing errors show only for particular geometries and values.", "anchors": ["src/cuckoo_filter.hpp: CuckooFilter::get_entry", "src/cuckoo_filter.hpp: CuckooFilter::set_entry"]}
{"id": "C08", "title": "Cuckoo filter has no false negatives while adds succeed", "statement": "After any history of add, remove, lookup and clear calls in which every add returned true and every remove was for an element with at least one outstanding add, lookup(e) is true for every element with more adds than removes since the last clear.", "quantifier": "every power-of-two bucket count, bucket size, entry size, hash and fingerprint function honouring the documented ranges, every random sequence and every history", "why_tests_cant": "Relocation chains depend on random choices and collisions; tests cover a handful of chains.", "anchors": ["src/cuckoo_filter.hpp: CuckooFilter::add", "src/cuckoo_filter.hpp: CuckooFilter::lookup", "src/cuckoo_filter.hpp: CuckooFilter::remove"]}
{"id": "C09", "title": "Cuckoo filter behaves as a bag of (fingerprint, bucket pair) keys", "statement": "lookup(e) is true exactly when the bag of keys obtained by adding the key of each added element and removing one occurrence per remove contains the key of e; a successful add adds exactly one key, a remove deletes exactly one occurrence if present and nothing otherwise; hence a false positive happens only by full key collision.", "quantifier": "every history with successful adds, every random sequence", "why_tests_cant": "Only a refinement argument covers all relocations.", "anchors": ["src/cuckoo_filter.hpp: CuckooFilter::add", "src/cuckoo_filter.hpp: CuckooFilter::search", "src/cuckoo_filter.hpp: CuckooFilter::remove"]}
{"id": "C10", "title": "A failed Cuckoo add loses no earlier element", "statement": "When add returns false, all elements that were in the filter before the call are still found by lookup.", "quantifier": "every filter content, element and random sequence", "why_tests_cant": "Failure needs 500 relocations in a full filter; tests do not check the displaced elements.", "anchors": ["src/cuckoo_filter.hpp: CuckooFilter::add"]}
{"id": "C11", "title": "A Cuckoo add succeeds without relocation when a candidate bucket has room, and capacity is respected", "statement": "If one of the two candidate buckets of e has a free slot, add(e) returns true, uses only a free slot and leaves all other entries as they were; the number of occupied slots is always (successful adds - effective removes) and never exceeds bucket_count*bucket_size.", "quantifier": "every filter state, element and random value", "why_tests_cant": "Requires all contents.", "anchors": ["src/cuckoo_filter.hpp: CuckooFilter::add", "src/cuckoo_filter.hpp: CuckooFilter::space_in_bucket"]}
{"id": "C12", "title": "Cuckoo filter accesses stay in bounds", "statement": "With hashes in [0,bucket_count[ and bucket_count a power of two, no call fails an assertion or accesses the filter array out of bounds.", "quantifier": "every history and random sequence in [0,1]", "why_tests_cant": "Depends on every alternate bucket index that relocation can produce.", "anchors": ["src/cuckoo_filter.hpp: CuckooFilter::add", "src/cuckoo_filter.hpp: CuckooFilter::get_entry", "src/cuckoo_filter.hpp: CuckooFilter::set_entry"]}
{"id": "C13", "title": "A new or cleared Cuckoo filter is empty for every empty_value", "statement": "On a newly constructed or cleared filter, lookup of any element is false and the first add returns true, whatever value the documented parameter empty_value has.", "quantifier": "every empty_value, geometry and element", "why_tests_cant": "Tests only use the default empty_value.", "anchors": ["src/cuckoo_filter.hpp: CuckooFilter::clear", "src/cuckoo_filter.hpp: CuckooFilter::space_in_bucket"]}
{"id": "C14", "title": "Reservoir sampling returns a valid slot and writes only there", "statement": "add(e) returns -1 and leaves the sample unchanged, or returns an index in [0,sample_size[ , stores e at that index and leaves all other slots unchanged.", "quantifier": "every sample size, stream length, and every sequence of random numbers in [0,1[ (the README generator can also return 1)", "why_tests_cant": "The boundary value of the generator appears with negligible frequency in tests.", "anchors": ["src/reservoir_sampling.hpp: ReservoirSampling::add", "src/reservoir_sampling.hpp: ReservoirSampling::sample_index"]}
{"id": "C15", "title": "Reservoir holds distinct stream positions", "statement": "After N adds the sample contains min(N,sample_size) items coming from pairwise distinct positions of the stream, in stream order for the first sample_size adds; once full it stays full.", "quantifier": "every stream, every N below 2^32, every random sequence", "why_tests_cant": "Needs all histories.", "anchors": ["src/reservoir_sampling.hpp: ReservoirSampling::add", "src/reservoir_sampling.hpp: ReservoirSampling::count"]}
{"id": "C16", "title": "Reservoir sampling is uniform", "statement": "With ideal independent uniform random numbers, after N >= sample_size adds each of the N stream positions is in the sample with probability exactly sample_size/N.", "quantifier": "every sample size, every N, every position", "why_tests_cant": "A statistical test can only estimate it for a few N.", "anchors": ["src/reservoir_sampling.hpp: ReservoirSampling::sample_index"]}
{"id": "C17", "title": "Reservoir count is the number of items offered", "statement": "count() equals the number of add (or sample_index) calls since construction, modulo 2^32.", "quantifier": "every history", "why_tests_cant": "Overflow needs 2^32 calls.", "anchors": ["src/reservoir_sampling.hpp: ReservoirSampling::count"]}
{"id": "C18", "title": "Exponential reservoir always keeps the newest item and never overflows", "statement": "Every add returns an index in [0,sample_size[ , stores the item there and leaves the other slots unchanged; count() never exceeds sample_size, never decreases, and grows exactly when a new slot is used.", "quantifier": "every sample size, stream and random sequence in [0,1[", "why_tests_cant": "Boundary random values and long streams.", "anchors": ["src/reservoir_sampling.hpp: ExponentialReservoirSampling::add", "src/reservoir_sampling.hpp: ExponentialReservoirSampling::sample_index"]}
{"id": "C19", "title": "Exponential reservoir holds distinct stream positions in its filled prefix", "statement": "After any number of adds the first count() slots hold items from pairwise distinct stream positions, one of which is the newest.", "quantifier": "every stream and random sequence in [0,1[", "why_tests_cant": "Needs all histories.", "anchors": ["src/reservoir_sampling.hpp: ExponentialReservoirSampling::add"]}
{"id": "C20", "title": "Chained reservoir only shows items that were added", "statement": "After at least one add per slot, every slot of the sample shows an element that was passed to add, whatever adds and obsolete calls were made.", "quantifier": "every history of add and obsolete calls, every random sequence and every timestamps", "why_tests_cant": "Chains are created, recycled and shifted in history-dependent ways.", "anchors": ["src/chained_reservoir.hpp: ChainedReservoirSampling::add", "src/chained_reservoir.hpp: ChainedReservoirSampling::obsolete", "src/chained_reservoir.hpp: ChainedReservoirSampling::operator[]"]}
{"id": "C21", "title": "Chained reservoir replaces obsolete items when a replacement is chained", "statement": "After obsolete(t), a slot whose chain held at least one element with timestamp >= t shows the oldest such element, and slots whose element is not obsolete are unchanged.", "quantifier": "every reachable state with increasing positive timestamps, every t", "why_tests_cant": "Needs every chain length and position, including recycled cells.", "anchors": ["src/chained_reservoir.hpp: ChainedReservoirSampling::obsolete", "src/chained_reservoir.hpp: ChainedReservoirSampling::shift_chain"]}
{"id": "C22", "title": "obsolete(t) treats timestamp t itself as obsolete", "statement": "As documented ('declare a timestamp and all anterior timestamps obsolete'), after obsolete(t) no slot that had a newer chained element shows an element with timestamp exactly t.", "quantifier": "every reachable state and t", "why_tests_cant": "Boundary comparison.", "anchors": ["src/chained_reservoir.hpp: ChainedReservoirSampling::obsolete"]}
{"id": "C23", "title": "Chained reservoir pointer safety and termination", "statement": "In every history the chains are finite, acyclic and pairwise disjoint, every call terminates and follows only valid links; add fails its internal assertion only when a chain holds about 5000 live elements.", "quantifier": "every history of add/obsolete calls and every random sequence", "why_tests_cant": "Cycles or dangling links would need particular histories.", "anchors": ["src/chained_reservoir.hpp: ChainedReservoirSampling::push_on_chain", "src/chained_reservoir.hpp: ChainedReservoirSampling::shift_chain", "src/chained_reservoir.hpp: ChainedReservoirSampling::clear_chain"]}
{"id": "C24", "title": "Chained reservoir behaves as a plain reservoir as long as obsolete is not used", "statement": "With nonzero timestamps and no obsolete call, the visible sample after N adds consists of elements from pairwise distinct stream positions and the i-th add fills slot i while i < sample_size.", "quantifier": "every stream and random sequence in [0,1]", "why_tests_cant": "Needs all histories.", "anchors": ["src/chained_reservoir.hpp: ChainedReservoirSampling::add"]}
{"id": "C25", "title": "LTC reconstruction error is at most epsilon", "statement": "For samples with consecutive integer timestamps, every sample lies within epsilon of the straight line joining the two transmitted points that surround it.", "quantifier": "every stream of in-range values, every epsilon", "why_tests_cant": "Needs all streams; rounding effects accumulate over long segments.", "anchors": ["src/ltc.hpp: LTC::add", "src/ltc.hpp: LTC::need_transmit", "src/ltc.hpp: LTC::get_value_to_transmit"]}
{"id": "C26", "title": "LTC does not transmit when one line fits", "statement": "If, since the last transmitted point, some line through that point with integer values (in the declared value range) at the sample times stays within epsilon of all samples, add returns false.", "quantifier": "every stream, epsilon, and line", "why_tests_cant": "Needs all streams.", "anchors": ["src/ltc.hpp: LTC::add", "src/ltc.hpp: LTC::need_transmit"]}
{"id": "C27", "title": "LTC transmits when no line fits", "statement": "If add returns false for all samples of a segment (exact arithmetic), then some line from the last transmitted point stays within epsilon of all of them; so whenever no such line exists, add has returned true.", "quantifier": "every stream and epsilon", "why_tests_cant": "Needs all streams.", "anchors": ["src/ltc.hpp: LTC::need_transmit"]}
{"id": "C28", "title": "LTC transmission protocol", "statement": "The first two adds return false; the first transmitted point is the first sample; each time add(t,v) returns true the point made available is the start of the segment just closed, and the next segment starts at time t-1; transmitted times strictly increase.", "quantifier": "every stream with increasing timestamps", "why_tests_cant": "Needs all streams.", "anchors": ["src/ltc.hpp: LTC::add", "src/ltc.hpp: LTC::get_value_to_transmit"]}
{"id": "C29", "title": "turn_array_into_probability yields a cumulative distribution", "statement": "For a non-empty array of non-negative values with positive sum, the result is non-decreasing, within [0,1], ends at exactly 1 and successive differences are the values divided by their sum (exact arithmetic).", "quantifier": "every array", "why_tests_cant": "Needs all arrays.", "anchors": ["src/utils.hpp: Utils::turn_array_into_probability"]}
{"id": "C30", "title": "pick_from_distribution picks each index on exactly its probability interval and never a zero-probability index", "statement": "For a cumulative distribution ending at 1 and u in [0,1[, the returned index i is in range, is the first with u <= p[i], and the set of u selecting i is an interval of length p[i]-p[i-1]; an index of probability 0 is never returned.", "quantifier": "every distribution and every u in [0,1[", "why_tests_cant": "u = 0 has negligible frequency.", "anchors": ["src/utils.hpp: Utils::pick_from_distribution"]}
{"id": "C31", "title": "shuffle permutes, in bounds, and can reach every permutation", "statement": "shuffle leaves a permutation of the array, accesses only valid indices, and every permutation is possible for some random sequence.", "quantifier": "every array and every random sequence in [0,1[", "why_tests_cant": "Number of permutations is factorial.", "anchors": ["src/utils.hpp: Utils::shuffle"]}
{"id": "C32", "title": "index_max returns the first maximal element", "statement": "For a non-empty array, index_max returns an index in range, whose element is maximal and which is the smallest such index.", "quantifier": "every array over a total order", "why_tests_cant": "Needs all arrays.", "anchors": ["src/utils.hpp: Utils::index_max"]}
{"id": "C33", "title": "Utils integer helpers compute what their names say", "statement": "div_int(a,b) is the truncated quotient, round rounds to a nearest integer (halves away from zero), abs is the absolute value, min and max are minimum and maximum.", "quantifier": "every argument where the result is representable and b is not 0", "why_tests_cant": "Infinite domain.", "anchors": ["src/utils.hpp: Utils::div_int", "src/utils.hpp: Utils::round", "src/utils.hpp: Utils::abs", "src/utils.hpp: Utils::min", "src/utils.hpp: Utils::max"]}
{"id": "C34", "title": "ErrorMetrics score is the error rate", "statement": "After any history of update, increase_error and reset with at least one recorded item, score() is (wrong updates + penalties)/(all items since reset), lies in [0,1] and score(false)+score(true)=1.", "quantifier": "every history", "why_tests_cant": "Needs all histories.", "anchors": ["src/metrics.hpp: ErrorMetrics::update", "src/metrics.hpp: ErrorMetrics::score", "src/metrics.hpp: ErrorMetrics::increase_error", "src/metrics.hpp: ErrorMetrics::reset"]}
{"id": "C35", "title": "KappaMetrics computes Cohen's kappa, in range and order-independent", "statement": "After any history of updates the kappa value equals (po-pe)/(1-pe) of the recorded (truth, prediction) pairs, does not depend on their order, lies in [-1,1], equals 1 iff all predictions are right, and both scores lie in [0,1]; it is undefined exactly when all truths and predictions are one single label.", "quantifier": "every label count and history", "why_tests_cant": "Inequalities must hold for every confusion matrix.", "anchors": ["src/metrics.hpp: KappaMetrics::kappa", "src/metrics.hpp: KappaMetrics::score", "src/metrics.hpp: KappaMetrics::update"]}
{"id": "C36", "title": "ReservoirSamplingMetrics scores form a probability distribution", "statement": "If k+1 live metrics have distinct numbers and one of them is the newest, the k older ones score 1/n each and the newest (n-k)/n, so scores sum to 1 and are non-negative when n>=k.", "quantifier": "every history of constructions and resets", "why_tests_cant": "Needs all histories.", "anchors": ["src/metrics.hpp: ReservoirSamplingMetrics::score", "src/metrics.hpp: ReservoirSamplingMetrics::reset"]}
{"id": "C37", "title": "Naive Bayes estimators are exact weighted mean and variance", "statement": "After training on any sequence of (value, positive weight) the running estimator holds the weighted mean and the weighted sum of squared deviations of exactly these values (exact arithmetic).", "quantifier": "every sequence of values and positive weights", "why_tests_cant": "Infinite domain.", "anchors": ["src/naive_bayes.hpp: NaiveBayes::GaussianEstimator::train"]}
{"id": "C38", "title": "Naive Bayes training is order independent and per label", "statement": "Reordering the training examples leaves all predictions unchanged (exact arithmetic), and training examples of one label do not change the estimators of other labels.", "quantifier": "every list of examples and every permutation of it", "why_tests_cant": "Factorially many orders.", "anchors": ["src/naive_bayes.hpp: NaiveBayes::train"]}
{"id": "C39", "title": "Naive Bayes predicts a best scoring label and never one it has not seen", "statement": "predict returns a label in range whose score is maximal (smallest such label); once at least one label has a finite score, a label never trained is not returned; smoothing influences the prediction as documented.", "quantifier": "every training history and every query", "why_tests_cant": "Needs all histories.", "anchors": ["src/naive_bayes.hpp: NaiveBayes::predict", "src/naive_bayes.hpp: NaiveBayes::set_smoothing"]}
{"id": "C40", "title": "Perceptron weights addressing is safe and unambiguous", "statement": "For every layer structure that fits in the memory budget, distinct (layer, neuron, input) triples address distinct in-bounds weights, and set_weights stores exactly the given values for the given triples and nothing else.", "quantifier": "every list of layer sizes", "why_tests_cant": "Needs all structures.", "anchors": ["src/perceptron.hpp: MultiLayerPerceptron::get_weight_base", "src/perceptron.hpp: MultiLayerPerceptron::set_weights"]}
{"id": "C41", "title": "Perceptron feed_forward computes the network function", "statement": "The output of feed_forward is the composition, over the layers, of affine maps given by the weights (last one is the bias) followed by the activation.", "quantifier": "every layer structure, weights, input and activation function", "why_tests_cant": "Infinite domain.", "anchors": ["src/perceptron.hpp: MultiLayerPerceptron::feed_forward"]}
{"id": "C42", "title": "Perceptron backpropagate performs one gradient descent step", "statement": "After feed_forward(x), backpropagate(expected) changes every weight by -learning_rate times the partial derivative of half the squared error, and returns the mean squared error.", "quantifier": "every layer structure, weights, input, target; activation with the supplied derivative", "why_tests_cant": "Infinite domain; numerical gradient checks sample points.", "anchors": ["src/perceptron.hpp: MultiLayerPerceptron::backpropagate"]}
{"id": "C43", "title": "Perceptron backpropagate reads only its own data", "statement": "backpropagate performs no out of bounds access.", "quantifier": "every layer structure with at least two layers", "why_tests_cant": "Silent out of bounds reads do not change results.", "anchors": ["src/perceptron.hpp: MultiLayerPerceptron::backpropagate"]}
{"id": "C44", "title": "MC-NN predicts a trained label", "statement": "predict returns empty_class or a label passed to train earlier, and it returns the label of the nearest cluster; empty_class is returned only when nothing has been trained.", "quantifier": "every training history and query", "why_tests_cant": "Needs all histories and distances.", "anchors": ["src/mc_nn.hpp: MCNN::predict", "src/mc_nn.hpp: MCNN::train"]}
{"id": "C45", "title": "MC-NN count_clusters is the number of active clusters", "statement": "count_clusters() equals the number of clusters that take part in predictions and never exceeds max_clusters.", "quantifier": "every training history", "why_tests_cant": "Needs full clusters plus splits.", "anchors": ["src/mc_nn.hpp: MCNN::count_clusters", "src/mc_nn.hpp: MCNN::split"]}
{"id": "C46", "title": "MC-NN train reports rejection correctly", "statement": "train returns false only if the point is not absorbed: all clusters are in use, cleaning cannot free one, and no cluster with the same label is close enough; in this case the set of cluster labels and centroids is unchanged. Otherwise some cluster has absorbed the point.", "quantifier": "every state and point", "why_tests_cant": "Needs all states.", "anchors": ["src/mc_nn.hpp: MCNN::train"]}
{"id": "C47", "title": "MC-NN cluster bookkeeping is sound", "statement": "In every reachable state each active cluster has at least one data point (so centroids are defined) and a cluster built by absorbing points without split has exactly their mean as centroid.", "quantifier": "every training history", "why_tests_cant": "Needs all histories.", "anchors": ["src/mc_nn.hpp: MCNN::cluster::incorporate", "src/mc_nn.hpp: MCNN::split"]}
{"id": "C48", "title": "Hoeffding tree leaves have independent statistics", "statement": "Training a point changes the class statistics of the leaf it falls in and not those of other leaves; two points in regions with different training data can get different predictions.", "quantifier": "every training history", "why_tests_cant": "Needs histories with splits.", "anchors": ["src/hoeffding_tree.hpp: HoeffdingTree::train", "src/hoeffding_tree.hpp: HoeffdingTree::predict"]}
{"id": "C49", "title": "Hoeffding tree splits on the feature of the chosen limit", "statement": "When a leaf splits at its best candidate limit, the split feature is the feature this limit belongs to.", "quantifier": "every feature layout and limit index", "why_tests_cant": "Needs all layouts.", "anchors": ["src/hoeffding_tree.hpp: Node::train"]}
{"id": "C50", "title": "Hoeffding tree navigation and memory bounds", "statement": "Sorting a point reaches a leaf, always in bounds, and node allocation never leaves the configured memory budget.", "quantifier": "every reachable tree and point", "why_tests_cant": "Needs all trees.", "anchors": ["src/hoeffding_tree.hpp: HoeffdingTree::sort_in_leaf", "src/hoeffding_tree.hpp: Node::operator new"]}
{"id": "C51", "title": "Hoeffding information gain is non-negative and class probabilities are a distribution", "statement": "For all counters the information gain of a limit is non-negative and predicted probabilities of a non-empty leaf are non-negative and sum to 1.", "quantifier": "every counter table", "why_tests_cant": "Infinite domain.", "anchors": ["src/hoeffding_tree.hpp: Node::compute_information_gain", "src/hoeffding_tree.hpp: Node::predict"]}
{"id": "C52", "title": "Mondrian forest tree structure stays well formed", "statement": "After any number of train calls each tree is a proper binary tree over distinct nodes of the pool, with consistent parent links and strictly increasing split times bounded by lifetime.", "quantifier": "every training stream and random sequence", "why_tests_cant": "Needs all streams and random values.", "anchors": ["src/mondrian.hpp: MondrianForest::train_tree", "src/mondrian.hpp: MondrianForest::extend_block"]}
{"id": "C53", "title": "Mondrian forest keeps every training point in the leaf it routes to", "statement": "For every tree, each training point routes to a leaf whose box contains it and each leaf's class counters are exactly the label histogram of the training points that route to it; no point is lost, even when memory is exhausted.", "quantifier": "every training stream, memory size and random sequence", "why_tests_cant": "Needs all streams; later splits must not misroute earlier points.", "anchors": ["src/mondrian.hpp: MondrianForest::extend_block", "src/mondrian.hpp: MondrianForest::predict_tree"]}
{"id": "C54", "title": "Mondrian splits separate", "statement": "For every split node, all training points below its left child have feature value <= split value and all below its right child have a larger one; boxes of children are inside the box of the parent.", "quantifier": "every training stream and random sequence", "why_tests_cant": "Needs all streams.", "anchors": ["src/mondrian.hpp: MondrianForest::extend_block", "src/mondrian.hpp: MondrianForest::sample_block"]}
{"id": "C55", "title": "Mondrian memory budget is respected without leaks", "statement": "Training never uses a node outside the pool, and every node taken from the pool belongs to some tree.", "quantifier": "every memory size, stream and random sequence", "why_tests_cant": "Needs exact exhaustion of the pool.", "anchors": ["src/mondrian.hpp: MondrianForest::available_node", "src/mondrian.hpp: MondrianForest::extend_block"]}
{"id": "C56", "title": "Mondrian predict is observation only", "statement": "predict returns a label in range, does not change structure or leaf counters, is repeatable, and never divides by zero after at least one training point.", "quantifier": "every trained state and query", "why_tests_cant": "Needs all states.", "anchors": ["src/mondrian.hpp: MondrianForest::predict", "src/mondrian.hpp: MondrianForest::update_posterior_count"]}
{"id": "C57", "title": "Mondrian train never reads uninitialised values", "statement": "For every random value in [0,1[ the chosen split dimension is one in which the point is outside the box, so the split interval is defined.", "quantifier": "every box, point and random value in [0,1[", "why_tests_cant": "Needs random value 0.", "anchors": ["src/mondrian.hpp: MondrianForest::extend_block", "src/utils.hpp: Utils::pick_from_distribution"]}
{"id": "C58", "title": "train reports whether the point was fully trained", "statement": "MondrianForest::train returns true exactly when all trees took the point into account.", "quantifier": "every state", "why_tests_cant": "An uninitialised result may look right in tests.", "anchors": ["src/mondrian.hpp: MondrianForest::train", "src/mondrian_unbound.hpp: MondrianForestUnbound::train"]}
{"id": "C59", "title": "Unbounded Mondrian forest equals the bounded one without memory pressure", "statement": "Given the same stream and random numbers, as long as the bounded forest does not run out of nodes both classes build the same trees and the same posterior counters.", "quantifier": "every stream and random sequence", "why_tests_cant": "Needs all streams.", "anchors": ["src/mondrian_unbound.hpp: MondrianForestUnbound::train_tree", "src/mondrian.hpp: MondrianForest::train_tree"]}
{"id": "C60", "title": "Unbounded Mondrian forest counts and counters are exact", "statement": "After every train, each internal node's counter of a label is min(1,left)+min(1,right), the number of leaves is the number of internal nodes plus the number of non-empty trees.", "quantifier": "every stream and random sequence", "why_tests_cant": "Needs all streams.", "anchors": ["src/mondrian_unbound.hpp: InternalNode::update_counters", "src/mondrian_unbound.hpp: MondrianForestUnbound::count_leaf"]}
{"id": "C61", "title": "Coarse Mondrian free-node accounting is exact", "statement": "The forest's count of available nodes always equals the number of nodes of the pool that are in no tree, and available_node returns a free node whenever that count is positive.", "quantifier": "every history of training, trimming, tree addition and deletion", "why_tests_cant": "Needs long histories.", "anchors": ["src/mondrian_coarse.hpp: CoarseMondrianForest::available_node", "src/mondrian_coarse.hpp: CoarseMondrianForest::extend_block0", "src/mondrian_coarse.hpp: CoarseMondrianForest::tree_delete", "src/mondrian_coarse.hpp: CoarseMondrianForest::node_reset"]}
{"id": "C62", "title": "Coarse Mondrian trains with its default parameters", "statement": "With default construction parameters every training point is taken into account by each tree while memory is available, or train returns false.", "quantifier": "every stream", "why_tests_cant": "Tests set explicit modes.", "anchors": ["src/mondrian_coarse.hpp: CoarseMondrianForest::train_tree"]}
{"id": "C63", "title": "Exponential reservoir has exactly exponential bias", "statement": "With ideal independent uniform random numbers, the item added at position p is still in the exponential reservoir after N adds with probability exactly (1-1/sample_size)^(N-1-p).", "quantifier": "every sample size, every N and every position", "why_tests_cant": "A statistical test can only estimate it for a few values.", "anchors": ["src/reservoir_sampling.hpp: ExponentialReservoirSampling::sample_index"]}
{"id": "C64", "title": "shuffle produces exactly the cyclic arrangements, all equally likely", "statement": "The set of arrangements shuffle can produce on n elements is exactly the set of single cycles through all n places, and with ideal random numbers each has probability 1/(n-1)!.", "quantifier": "every array and every random sequence in [0,1[", "why_tests_cant": "The number of arrangements is factorial.", "anchors": ["src/utils.hpp: Utils::shuffle"]}
{"id": "C65", "title": "rand_exponential follows the exponential law", "statement": "For a positive rate and an ideal uniform random number the result is non-negative and exceeds x with probability exp(-rate*x).", "quantifier": "every rate and every x >= 0", "why_tests_cant": "A statistical test can only estimate it.", "anchors": ["src/utils.hpp: Utils::rand_exponential"]}
{"id": "C66", "title": "Chained reservoir sampling is uniform without obsolete", "statement": "With nonzero timestamps, no obsolete call and ideal random numbers, after N > sample_size adds each of the N items is in the visible sample with the same probability, and an item that enters replaces each slot with the same probability.", "quantifier": "every sample size, every stream length", "why_tests_cant": "A statistical test cannot distinguish a small bias, and the project's tests only compare frequencies of very unbalanced values.", "anchors": ["src/chained_reservoir.hpp: ChainedReservoirSampling::add", "src/chained_reservoir.hpp: ChainedReservoirSampling::round"]}
{"id": "C67", "title": "MC-NN split separates a cluster along its widest feature", "statement": "When a cluster is split, it is replaced by two one-point clusters with the same label, at its centroid minus and plus the standard deviation along a feature whose variance is the highest; the new cluster takes a free place or that of a cluster with the lowest participation, and no other cluster changes. The variance is never negative, so the square root is defined.", "quantifier": "every state in which a cluster is split, every number of clusters and features, every cleaning method", "why_tests_cant": "Needs all states, ties between variances and participations, and full cluster arrays.", "anchors": ["src/mc_nn.hpp: MCNN::split", "src/mc_nn.hpp: MCNN::get_lowest_participation"]}
{"id": "C68", "title": "Perceptron stays within its memory budget", "statement": "The weights and the neuron outputs of a perceptron take at most max_size bytes.", "quantifier": "every max_size", "why_tests_cant": "Tests use one size; rounding mistakes show at particular sizes.", "anchors": ["src/perceptron.hpp: MultiLayerPerceptron::total_weight_count"]}
{"id": "C69", "title": "Mondrian forest reproduces a repeated training point", "statement": "After training only on copies of one labelled point, predict returns the label of that point for it.", "quantifier": "every point, label, number of copies, number of trees, memory size and random sequence", "why_tests_cant": "The outcome depends on discount factor, lifetime and base measure through the exponential function; tests only look at accuracies on large streams.", "anchors": ["src/mondrian.hpp: MondrianForest::predict", "src/mondrian.hpp: MondrianForest::compute_posterior_mean"]}
{"id": "C70", "title": "Destroying an unbounded Mondrian forest frees each node exactly once", "statement": "After any history of train and predict calls, the destructor frees every node the object allocated exactly once and touches no freed node; objects may be copied.", "quantifier": "every history, number of trees and random sequence", "why_tests_cant": "Leaks and double frees depend on the shapes of the trees, which depend on random numbers.", "anchors": ["src/mondrian_unbound.hpp: MondrianForestUnbound::~MondrianForestUnbound", "src/mondrian_unbound.hpp: MondrianNode::~MondrianNode"]}
{"id": "C71", "title": "Predictions of a Mondrian forest do not influence later calls", "statement": "A history of calls and the same history without its predict calls consume the same random numbers and end with the same trees and the same predictions, although predict writes to the nodes.", "quantifier": "every history, memory size, number of trees and random sequence, also when the memory is exhausted", "why_tests_cant": "Needs pairs of histories.", "anchors": ["src/mondrian.hpp: MondrianForest::predict", "src/mondrian.hpp: MondrianForest::update_posterior_count"]}
{"id": "C72", "title": "Unbounded Mondrian forest routes points to the leaves that count them", "statement": "After any history every tree partitions the training points: boxes are the smallest around the points routed to a node, splits separate them, leaf counters count the points of each label; no call has undefined behaviour, predict returns a label in range and train reports success.", "quantifier": "every history, number of trees and random sequence", "why_tests_cant": "Needs all streams and random sequences.", "anchors": ["src/mondrian_unbound.hpp: MondrianForestUnbound::train", "src/mondrian_unbound.hpp: MondrianForestUnbound::predict"]}
{"id": "C73", "title": "Hoeffding tree keeps growing while there are informative limits", "statement": "After a split the new leaves have limits that divide their points, so that a leaf with enough training points and an informative feature is split in turn.", "quantifier": "every history of calls", "why_tests_cant": "The limits of new leaves depend on the boxes after the split; tests train a single leaf.", "anchors": ["src/hoeffding_tree.hpp: HoeffdingTree::Node::split", "src/hoeffding_tree.hpp: HoeffdingTree::Node::select_split_values"]}
{"id": "C74", "title": "Coarse Mondrian forest respects the node limit of a tree", "statement": "With the tree managements that limit the number of nodes of a tree (robur, pausing phoenix), no tree ever has more nodes than its limit, whatever the memory of the object contained before its construction.", "quantifier": "every history of calls, limit, memory size and random sequence", "why_tests_cant": "The limit is only reached by particular streams; tests do not fill the memory of the object with other values before the construction.", "anchors": ["src/mondrian_coarse.hpp: TreeBase::is_paused", "src/mondrian_coarse.hpp: CoarseMondrianForest::train"]}
{"id": "C75", "title": "Coarse Mondrian forest respects the depth limit of the trees", "statement": "With the cobble managements, no tree ever becomes deeper than the given limit, and no call has undefined behaviour because of the depth of a tree.", "quantifier": "every history of calls, limit and random sequence", "why_tests_cant": "Depths above the size of internal arrays need particular streams of more than a hundred points.", "anchors": ["src/mondrian_coarse.hpp: CoarseMondrianForest::node_depth", "src/mondrian_coarse.hpp: CoarseMondrianForest::unravel", "src/mondrian_coarse.hpp: CoarseMondrianForest::train"]}
{"id": "C76", "title": "Coarse Mondrian forest uses its memory exactly", "statement": "The trees and the nodes lie side by side inside the buffer of the given size, no further node would fit, and all nodes are available at the beginning; a buffer too small for the trees is detected.", "quantifier": "every buffer size, number of trees and size of the structures", "why_tests_cant": "Tests use one size.", "anchors": ["src/mondrian_coarse.hpp: CoarseMondrianForest::CoarseMondrianForest"]}
{"id": "C77", "title": "Coarse Mondrian forest counts every training point once per tree", "statement": "If every call of train succeeds and nothing is trimmed, the counters of every tree together hold every training point exactly once.", "quantifier": "every history of calls, way to extend, tree management and random sequence", "why_tests_cant": "What happens to a point depends on random numbers and on the memory left.", "anchors": ["src/mondrian_coarse.hpp: CoarseMondrianForest::train_tree", "src/mondrian_coarse.hpp: CoarseMondrianForest::extend_block0", "src/mondrian_coarse.hpp: CoarseMondrianForest::extend_block3"]}
{"id": "C78", "title": "Trimming a coarse Mondrian forest removes one leaf per tree", "statement": "A call of tree_trim removes from each tree at most one leaf and its parent, chosen among the leaves with the lowest score, and makes both nodes available; it leaves the rest of the tree, and a tree with a single node, as it was.", "quantifier": "every reachable state, kind of trimming and random sequence", "why_tests_cant": "Needs all tree shapes and all positions of the leaf.", "anchors": ["src/mondrian_coarse.hpp: CoarseMondrianForest::tree_trim", "src/mondrian_coarse.hpp: CoarseMondrianForest::cut_block", "src/mondrian_coarse.hpp: CoarseMondrianForest::node_reset"]}
{"id": "C79", "title": "Coarse Mondrian forest predicts without side effects", "statement": "After any history predict has no undefined behaviour, returns a label in range, and returns the same label when called again; it changes neither the structure of the trees nor the counters of the leaves.", "quantifier": "every history of calls, point, number of trees to use and random sequence", "why_tests_cant": "Needs all reachable states; predict writes to the nodes.", "anchors": ["src/mondrian_coarse.hpp: CoarseMondrianForest::predict", "src/mondrian_coarse.hpp: CoarseMondrianForest::update_posterior_count"]}
{"id": "C80", "title": "Coarse Mondrian trees are well formed after every history", "statement": "After every history of calls the trees are disjoint, every node is the child of its parent, the times increase from the root to the leaves, and a leaf lies at the lifetime.", "quantifier": "every history of calls, configuration and random sequence", "why_tests_cant": "Extension and trimming relink nodes in many ways, depending on random numbers.", "anchors": ["src/mondrian_coarse.hpp: CoarseMondrianForest::train", "src/mondrian_coarse.hpp: CoarseMondrianForest::cut_block"]}
{"id": "C81", "title": "Coarse Mondrian forest reports the points and the small leaves of a tree", "statement": "count_data_point_tree returns the number of points counted in the leaves of the tree, which without trimming is the number of training points, and count_dead_supply_tree the number of leaves with less than 50 points; both return -1 for a tree that is too high for their internal stack of 100 entries.", "quantifier": "every history of calls, configuration, tree and random sequence", "why_tests_cant": "Needs trees of all shapes, and trees of more than a hundred levels.", "anchors": ["src/mondrian_coarse.hpp: CoarseMondrianForest::count_data_point_tree", "src/mondrian_coarse.hpp: CoarseMondrianForest::count_dead_supply_tree"]}
{"id": "C82", "title": "Splitting nodes keeps a coarse Mondrian forest well formed", "statement": "With each split trigger and each split helper, the trees are well formed after every history: children are allocated nodes, every node is the child of its parent, and predict terminates.", "quantifier": "every history of calls, split trigger, split helper, distribution and random sequence", "why_tests_cant": "A split removes whole parts of a tree, depending on boxes, random numbers and the memory left.", "anchors": ["src/mondrian_coarse.hpp: CoarseMondrianForest::split_node", "src/mondrian_coarse.hpp: CoarseMondrianForest::split_barycenter", "src/mondrian_coarse.hpp: CoarseMondrianForest::adjust_boxes"]}
{"id": "C83", "title": "Splitting a leaf divides its counters between the two sides", "statement": "When a leaf is split by a split helper, the points it has counted are divided between the two new leaves in proportion to the parts of its box on the two sides of the split.", "quantifier": "every reachable state, split helper, training point and random sequence", "why_tests_cant": "Tests do not reach the splits, which need a memory that has been full more than 20 times and a trim.", "anchors": ["src/mondrian_coarse.hpp: CoarseMondrianForest::split_barycenter", "src/mondrian_coarse.hpp: CoarseMondrianForest::adjust_counters", "src/mondrian_coarse.hpp: CoarseMondrianForest::count_sides"]}
{"id": "C84", "title": "Coarse Mondrian forest does not depend on previous memory contents", "statement": "The trees and the predictions after a history depend only on the parameters, the calls and the random numbers, not on what the memory of the object contained before its construction.", "quantifier": "every history of calls, split helper, memory content and random sequence", "why_tests_cant": "Tests do not fill the memory of the object before the construction.", "anchors": ["src/mondrian_coarse.hpp: CoarseMondrianForest::train", "src/mondrian_coarse.hpp: CoarseMondrianForest::sum_features", "src/mondrian_coarse.hpp: CoarseMondrianForest::split_barycenter"]}
{"id": "C85", "title": "The margin of a label in a coarse Mondrian forest", "statement": "For at least two labels, eval_scores returns the score of the given label minus the best score of the other labels.", "quantifier": "every score vector, number of labels and label", "why_tests_cant": "Tests do not try the first label when it is the best.", "anchors": ["src/mondrian_coarse.hpp: CoarseMondrianForest::eval_scores"]}
{"id": "C86", "title": "The barycenter of a part of a coarse Mondrian tree", "statement": "After every history, for every node of a tree, find_barycenter returns the mean of the centres of the boxes of the leaves below the node, weighted with their numbers of points; it lies between the smallest and the greatest bounds of these boxes.", "quantifier": "every history of calls, configuration, node and random sequence", "why_tests_cant": "Needs trees of all shapes and all nodes.", "anchors": ["src/mondrian_coarse.hpp: CoarseMondrianForest::find_barycenter"]}
{"id": "C87", "title": "The points on the two sides of a split are counted", "statement": "After every history, for every node of a tree and every split, count_sides returns how many points counted below the node are below the split and how many are above; the two numbers add up to the number of points, and a leaf whose box the split goes through is divided in proportion, up to one point.", "quantifier": "every history of calls, configuration, node, split and random sequence", "why_tests_cant": "Needs trees of all shapes, splits through any number of boxes and both outcomes of the random rounding.", "anchors": ["src/mondrian_coarse.hpp: CoarseMondrianForest::count_sides"]}
{"id": "C88", "title": "Adjusting the counters for a split keeps the points", "statement": "After every history, for every node of a tree and every split, adjust_counters leaves in the leaves below the node the points on one side of the split and reports those on the other side as removed; kept and removed points are together the points there were, and nothing but the counters of these leaves changes.", "quantifier": "every history of calls, configuration, node, split and side", "why_tests_cant": "Needs trees of all shapes and all rounding cases.", "anchors": ["src/mondrian_coarse.hpp: CoarseMondrianForest::adjust_counters"]}
{"id": "C89", "title": "The boxes of a coarse Mondrian tree are nested and separated", "statement": "After every history the box of every split node contains the boxes of the nodes below it, the boxes below a split are on their side of it, and no lower bound is above the upper bound.", "quantifier": "every history of calls, configuration and random sequence", "why_tests_cant": "The boxes are changed in several places depending on the way to extend and the memory left.", "anchors": ["src/mondrian_coarse.hpp: CoarseMondrianForest::extend_block3", "src/mondrian_coarse.hpp: CoarseMondrianForest::extend_block4", "src/mondrian_coarse.hpp: CoarseMondrianForest::train_tree"]}
{"id": "C90", "title": "Without trimming the split triggers and split helpers have no effect", "statement": "A coarse Mondrian forest without trimming (TRIM_NONE) ends after every history of calls in the same state whatever split trigger, split helper and split distribution are chosen: the state it would have with none of them, if the random numbers that were drawn only to decide on a split are left out. In particular the trees stay trees, keep the depth limit and count each point once, and nothing depends on uninitialised memory.", "quantifier": "every way to extend, tree management, split trigger, helper and distribution, every pool size and tree count, every history of train, predict and fading, all random numbers", "why_tests_cant": "Whether the code of a split can be reached depends on counters of earlier forced extensions and on the memory left over the whole history; a test sees a few histories.", "anchors": ["src/mondrian_coarse.hpp: CoarseMondrianForest::extend_block4", "src/mondrian_coarse.hpp: CoarseMondrianForest::train", "src/mondrian_coarse.hpp: CoarseMondrianForest::split_barycenter", "src/mondrian_coarse.hpp: CoarseMondrianForest::train_tree"]}
{"id": "C91", "title": "False-positive rate of the Bloom filter", "statement": "After a filter of m bits with k hash functions was cleared and n elements were added, lookup answers true for an element that was not added with a probability between (1-(1-1/m)^(kn))^k and (kn/m)^k, if the hash functions are drawn uniformly and independently; what was in the filter before the clear has no influence.", "quantifier": "every number of bits, of hash functions and of elements, every earlier history, every element that was not added; over all families of hash functions", "why_tests_cant": "A rate over all hash functions cannot be measured by a test with fixed functions.", "anchors": ["src/bloom_filter.hpp: BloomFilter::add", "src/bloom_filter.hpp: BloomFilter::lookup", "src/bloom_filter.hpp: BloomFilter::clear"]}
{"id": "C92", "title": "Number of elements a Cuckoo filter reports", "statement": "Of elements that differ in fingerprint or bucket, lookup answers true for at most two per add since the last clear, and at most two per entry of the filter. Over all combinations of a fingerprint and a bucket the rate of positive answers is therefore at most 2*bucket_size/(2^entry_size-1).", "quantifier": "every history of calls, configuration, random sequence and set of elements", "why_tests_cant": "Needs all histories and all elements; fills and relocations depend on random numbers.", "anchors": ["src/cuckoo_filter.hpp: CuckooFilter::lookup", "src/cuckoo_filter.hpp: CuckooFilter::add", "src/cuckoo_filter.hpp: CuckooFilter::clear"]}
{"id": "C93", "title": "Every sample of the reservoir is equally likely", "statement": "After N >= k items, a reservoir of size k holds any given set of k of the N stream positions with the same probability, one over the number of such sets.", "quantifier": "every reservoir size, stream length below 2^32 and set of positions; over all independent uniform random numbers", "why_tests_cant": "The probabilities of all subsets cannot be measured; equal rates of single items do not imply it.", "anchors": ["src/reservoir_sampling.hpp: ReservoirSampling::add", "src/reservoir_sampling.hpp: ReservoirSampling::sample_index"]}
{"id": "C94", "title": "Splits of a Mondrian forest follow the law of a Mondrian process", "statement": "With ideal independent uniform random numbers, and with two free nodes for every tree, one call of train changes the trees of MondrianForest as a Mondrian process does: on the way of the new point through a tree, a split is introduced above a node at a time after that of its parent that is exponentially distributed with the distance of the point from the box of the node as rate, if this is before the time of the node; its dimension is drawn in proportion to the distances in the dimensions and its value is uniform in the gap between the box and the point. In particular no node is added with probability exp(-sum of distance times interval). The trees change independently of each other.", "quantifier": "every history of calls before, every forest size with enough nodes, every point and every event (depth, dimension, bound on the time, bound on the value) for every tree", "why_tests_cant": "A probability cannot be read off runs, only estimated, and it has to hold in every state.", "anchors": ["src/mondrian.hpp: MondrianForest::extend_block", "src/mondrian.hpp: MondrianForest::train", "src/utils.hpp: Utils::rand_exponential"]}
{"id": "C95", "title": "A Mondrian forest realises the Laplace kernel", "statement": "With ideal independent uniform random numbers, after any history of calls of train and predict on a new MondrianForest with enough nodes, or on a new MondrianForestUnbound, or on a new CoarseMondrianForest with EXTEND_ORIGINAL, PHOENIX_MANAGEMENT and enough nodes, the probability that two given training points are in the same leaf of a given tree is exp(-lifetime * (sum over the features of |a_i - b_i|)). More generally, groups of training points, one for each tree, are each kept in one leaf of their tree with probability exp(-lifetime * sum of the side lengths of the smallest boxes around the groups). So the trees are independent, and neither the order of the training points nor the points outside of the groups matter.", "quantifier": "every history, every number of trees, every choice of the groups", "why_tests_cant": "The probability depends on the whole history of random splits; it cannot be read off runs.", "anchors": ["src/mondrian.hpp: MondrianForest::train", "src/mondrian_unbound.hpp: MondrianForestUnbound::train", "src/mondrian_coarse.hpp: CoarseMondrianForest::train", "src/mondrian.hpp: MondrianForest::extend_block", "src/utils.hpp: Utils::rand_exponential"]}
{"id": "C96", "title": "UNBOUND_OPTIMIZE does not change results", "statement": "Defining UNBOUND_OPTIMIZE, which moves the update of the counters of split nodes from predict to train, does not change any result of CoarseMondrianForest: after every history of calls train returns the same value and uses the same random numbers, predict returns the same label, and a history is defined with the macro exactly if it is without.", "quantifier": "every history of calls, configuration, random sequence, point and number of trees", "why_tests_cant": "The two programs update different counters at different times; that all predictions agree has to hold in every reachable state.", "anchors": ["src/mondrian_coarse.hpp: CoarseMondrianForest::train", "src/mondrian_coarse.hpp: CoarseMondrianForest::predict", "src/mondrian_coarse.hpp: CoarseMondrianForest::update_posterior_count", "src/mondrian_coarse.hpp: CoarseMondrianForest::get_leaf"]}
{"id": "C97", "title": "print_nodes only prints", "statement": "With print_nodes, CoarseMondrianForest prints at every call of train the scores of every tree and of the forest for the new point, and then every node of every tree exactly once, each one with its depth and its present content. Printing does not change any result: train returns the same value, uses the same random numbers, and predict returns the same label as without print_nodes, and every history defined without is defined with it.", "quantifier": "every history of calls, configuration, random sequence, point and number of trees", "why_tests_cant": "The walk over the trees depends on the whole history of splits and removals; that the output is complete and that nothing is influenced has to hold in every reachable state.", "anchors": ["src/mondrian_coarse.hpp: CoarseMondrianForest::train", "src/mondrian_coarse.hpp: CoarseMondrianForest::scory", "src/mondrian_coarse.hpp: CoarseMondrianForest::printy", "src/mondrian_coarse.hpp: CoarseMondrianForest::tree_printy", "src/mondrian_coarse.hpp: CoarseMondrianForest::node_csv"]}
{"id": "C98", "title": "The Mondrian forests do not depend on the units and the origin of the features", "statement": "If every value v of feature i, in training and in prediction, is replaced by a*v + b_i with one factor a > 0 for all features and an offset b_i for each feature, lifetime is replaced by lifetime/a and discount by discount*a, then MondrianForest and MondrianForestUnbound consume the same random numbers and return the same labels. In particular adding constants to the features changes nothing.", "quantifier": "all histories of train and predict calls, factors, offsets, parameters, random numbers, pool sizes and numbers of trees", "why_tests_cant": "The statement compares every history with all its transformed versions; a test compares a few, and rounding hides whether a difference is systematic.", "anchors": ["src/mondrian.hpp: MondrianForest::extend_block", "src/mondrian.hpp: MondrianForest::predict_tree", "src/mondrian.hpp: MondrianForest::compute_posterior_mean", "src/mondrian_unbound.hpp: MondrianForestUnbound::train", "src/mondrian_unbound.hpp: MondrianForestUnbound::predict"]}
{"id": "C99", "title": "The Mondrian forests do not depend on the names of the labels", "statement": "If the labels of all training points are renamed by a permutation, MondrianForest and MondrianForestUnbound consume the same random numbers, every label gets the votes of its old name, and the predicted label is the renamed one.", "quantifier": "all histories of train and predict calls, permutations of the labels, parameters, random numbers, pool sizes and numbers of trees", "why_tests_cant": "There are factorially many permutations for every history.", "anchors": ["src/mondrian.hpp: MondrianForest::train", "src/mondrian.hpp: MondrianForest::predict", "src/mondrian_unbound.hpp: MondrianForestUnbound::train", "src/mondrian_unbound.hpp: MondrianForestUnbound::predict"]}
{"id": "C100", "title": "MC-NN does not depend on the origin of the features", "statement": "If the same offsets are added to the features of every training point and of every query, MC-NN with the same parameters ends with the same number of clusters and predicts the same labels, also in an object with other indeterminate initial contents.", "quantifier": "all histories of train calls, offsets, thresholds, cleaning policies, cluster capacities and queries", "why_tests_cant": "The statement compares every history with all its translated versions.", "anchors": ["src/mc_nn.hpp: MCNN::train", "src/mc_nn.hpp: MCNN::predict", "src/mc_nn.hpp: MCNN::euclidean_distance", "src/mc_nn.hpp: MCNN::split"]}
{"id": "C101", "title": "MC-NN does not depend on the names of the labels", "statement": "If the labels of all training points, and the class returned for an empty classifier, are renamed by an injective function, MC-NN ends with the same number of clusters and predicts the renamed labels.", "quantifier": "all histories of train calls, injective renamings, thresholds, cleaning policies, cluster capacities and queries", "why_tests_cant": "There are factorially many renamings for every history.", "anchors": ["src/mc_nn.hpp: MCNN::train", "src/mc_nn.hpp: MCNN::predict", "src/mc_nn.hpp: MCNN::find_nearest_clusters"]}
{"id": "C102", "title": "Naive Bayes does not depend on the units and the origin of the features", "statement": "If every value v of feature f, in training and in prediction, is replaced by a_f*v + b_f with factors a_f > 0, naive Bayes predicts the same labels; with all factors 1 the scores are the same too.", "quantifier": "all training histories, factors, offsets, weights and queries", "why_tests_cant": "The statement compares every history with all its transformed versions; rounding hides whether a difference is systematic.", "anchors": ["src/naive_bayes.hpp: NaiveBayes::train", "src/naive_bayes.hpp: NaiveBayes::predict", "src/naive_bayes.hpp: GaussianEstimator::train", "src/naive_bayes.hpp: GaussianEstimator::probability_density"]}
{"id": "C103", "title": "Naive Bayes does not depend on the names of the labels", "statement": "If the labels of all training examples are renamed by a permutation, every label gets the score of its old name and the renamed label is predicted.", "quantifier": "all training histories, permutations of the labels, weights and queries", "why_tests_cant": "There are factorially many permutations for every history.", "anchors": ["src/naive_bayes.hpp: NaiveBayes::train", "src/naive_bayes.hpp: NaiveBayes::predict"]}
{"id": "C104", "title": "LTC works with every time unit", "statement": "time_unit_difference only sets the unit of the timestamps: for every value of it the protocol of C28 is kept, and, in exact arithmetic and with consecutive timestamps, every sample lies within epsilon of the line joining the transmitted points around it.", "quantifier": "every time unit greater than 0, every stream with increasing timestamps", "why_tests_cant": "Tests use the default unit, for which the two divisions by it have no effect.", "anchors": ["src/ltc.hpp: LTC::need_transmit", "src/ltc.hpp: LTC::add"]}
{"id": "C105", "title": "Labels without training points in the Mondrian forests", "statement": "A label for which no training point was given gets the score base_measure from every tree, whatever the query and the other training points; so a predicted label is the label of a training point or the smallest label without training points. In a CoarseMondrianForest, whatever its configuration, all labels without training points get equal votes, with the same consequence for the predicted label.", "quantifier": "all histories of train and predict calls, queries, random sequences, numbers of trees and labels, memory sizes, parameters", "why_tests_cant": "The score passes through every node on the path of the query with different weights; only an induction over the tree shows that they cancel.", "anchors": ["src/mondrian.hpp: MondrianForest::predict_tree", "src/mondrian.hpp: MondrianForest::compute_posterior_mean", "src/mondrian_unbound.hpp: MondrianForestUnbound::predict", "src/mondrian_coarse.hpp: CoarseMondrianForest::predict"]}
{"id": "C106", "title": "Rounding does not take the samplers outside their specification", "statement": "Computed in floating point with rounding to nearest, every run of the reservoir, exponential reservoir and chained reservoir samplers and of the shuffle is a run of the same code in exact arithmetic with other random numbers from the same interval; so sizes, indices, contents and permutations are as specified without rounding.", "quantifier": "all streams and call sequences, random numbers representable in the format, sample sizes below 2^31, binary formats with at least 33 bits of precision (double included), all tie-breaking rules", "why_tests_cant": "The dangerous case is a product with a random number just below 1, which a test draws with probability 2^-53; the same code goes out of bounds if the rounding mode is upward.", "anchors": ["src/reservoir_sampling.hpp: ReservoirSampling::add", "src/reservoir_sampling.hpp: ExponentialReservoirSampling::add", "src/chained_reservoir.hpp: ChainedReservoirSampling::add", "src/utils.hpp: functions::shuffle"]}
{"id": "C107", "title": "Drawing from a list of weights is accurate and in range despite rounding", "statement": "Turning non-negative weights into cumulative probabilities in floating point gives non-decreasing values within a small multiple of the rounding error of the exact ones; drawing from them never selects a weight of zero (except with the random number 0), and always selects one of the indices.", "quantifier": "all lists of non-negative weights with a positive sum, all random numbers, all binary formats and roundings to nearest", "why_tests_cant": "The last cumulative value can come out below 1 by one unit in the last place and only the largest random numbers then show it; a bound on the accumulated error must hold for every list of weights.", "anchors": ["src/utils.hpp: Utils::turn_array_into_probability", "src/utils.hpp: Utils::pick_from_distribution"]}
{"id": "C108", "title": "Mondrian training is sound despite rounding", "statement": "Computed in floating point, training a Mondrian forest keeps well-formed trees; every split value separates the two sides it was drawn for, so that each training point is routed to a leaf that has counted it, and training never uses uninitialised values.", "quantifier": "all histories of training points, all random numbers of the format, all binary formats and roundings to nearest, all pool sizes and numbers of trees", "why_tests_cant": "Whether a split value is rounded to the upper end depends on the distance between feature values and their magnitude, and whether a dimension is found depends on the last bit of a random number.", "anchors": ["src/mondrian.hpp: MondrianForest::train", "src/mondrian.hpp: MondrianForest::extend_block", "src/utils.hpp: Utils::pick_from_distribution"]}
{"id": "C109", "title": "Naive Bayes estimates stay sane despite rounding", "statement": "Computed in floating point, the mean of every feature and label stays between the smallest and the largest training value, the variance is never negative, and it is zero only if all the values are the same.", "quantifier": "all histories of training points and weights, all numbers of labels and features, all binary formats and roundings to nearest", "why_tests_cant": "The incremental update subtracts nearly equal numbers; whether the result leaves the range or loses its sign depends on the last bits of a whole history.", "anchors": ["src/naive_bayes.hpp: NaiveBayes::train"]}
{"id": "C110", "title": "MC-NN keeps working despite rounding", "statement": "Computed in floating point, training never leaves its memory and predictions are labels of the history; centroids and variances of the clusters are within a small multiple of the rounding error of those of their points; and a cluster that is split is replaced by two clusters with the same label that can be found again.", "quantifier": "all histories of training points, all numbers of features and clusters, all thresholds and cleaning methods, all binary formats and roundings to nearest", "why_tests_cant": "A variance computed as the difference of two large sums turns negative only for particular last bits; the NaN it produces stays silent, the label just disappears from the predictions.", "anchors": ["src/mc_nn.hpp: MCNN::train", "src/mc_nn.hpp: MCNN::predict", "src/mc_nn.hpp: MCNN::split"]}
{"id": "C111", "title": "LTC behaves the same with floating-point slopes", "statement": "The slopes are doubles and are rounded, but this is not visible: the answers of every call are those of the algorithm with exact slopes. In particular a sample is transmitted only if no line of integer values through the last transmitted point is within epsilon of all samples since, and the protocol (first two calls false, first sample first, timestamps increasing) holds.", "quantifier": "all streams of integer samples with increasing timestamps, all ways of rounding ties", "why_tests_cant": "A limit that is an integer in exact arithmetic is truncated one lower when the product of a rounded slope and a gap is just below it; this needs particular gaps (49 time units) and values.", "anchors": ["src/ltc.hpp: LTC::add", "src/ltc.hpp: LTC::need_transmit", "src/ltc.hpp: LTC::get_value_to_transmit"]}
{"id": "C112", "title": "Judging a forest with otter does not change its behaviour and measures what it says", "statement": "A call of otter with a labelled point leaves every later train, trim and predict as it would have been without the call, and uses no random numbers. It counts the call; it adds to the direction 1 if the forest of one level shorter trees has a greater margin for the label than the forest with one tree less (in the mean over the trees), and -1 otherwise; and for each tree it keeps a mean, with factor 0.95 per call, of the change of the margin when the tree is left out.", "quantifier": "all configurations, forests, histories with any number of calls of otter, points and labels", "why_tests_cant": "The effect of a call on later results and the comparison of the two forests depend on the whole history, the number of trees and their depth; a test sees one forest.", "anchors": ["src/mondrian_coarse.hpp: CoarseMondrianForest::otter", "src/mondrian_coarse.hpp: CoarseMondrianForest::predict_tree", "src/mondrian_coarse.hpp: CoarseMondrianForest::tree_depth", "src/mondrian_coarse.hpp: CoarseMondrianForest::eval_scores"]}
{"id": "C113", "title": "A coarse forest that extends its trees in the original way is the Mondrian forest while memory lasts", "statement": "With EXTEND_ORIGINAL and PHOENIX_MANAGEMENT a CoarseMondrianForest that is given the same calls and the same random numbers as the forest with unlimited memory (MondrianForestUnbound) uses the same random numbers, has the same trees (boxes, splits, times, counters) and predicts the same labels, as long as the unlimited forest has not more nodes than the coarse one (two less if trimming is configured). The same holds against MondrianForest with the same number of nodes while that one has two free nodes.", "quantifier": "all histories of train, predict, fading and uses of other objects, random sequences, log functions, numbers of trees and nodes, trimming policies, values of the static variable and of uninitialised members", "why_tests_cant": "Two implementations with different search for free memory, different order of checks and different bookkeeping must agree after every history; a test compares a few runs.", "anchors": ["src/mondrian_coarse.hpp: CoarseMondrianForest::train", "src/mondrian_coarse.hpp: CoarseMondrianForest::extend_block", "src/mondrian_coarse.hpp: CoarseMondrianForest::predict", "src/mondrian_unbound.hpp: MondrianForestUnbound::train", "src/mondrian.hpp: MondrianForest::train"]}
{"id": "C114", "title": "A small enough learning step lowers the perceptron's error on the example", "statement": "For every network, input and expected output there is a positive bound such that with every smaller positive learning rate feed_forward followed by backpropagate either changes no weight, or the error backpropagate returns when the same example is presented again is strictly smaller. When the output already is the expected one the returned error is 0 and no weight changes, whatever the learning rate.", "quantifier": "all layer sizes, weights, inputs, expected outputs, activation functions whose derivative is the supplied one, contents of the working arrays", "why_tests_cant": "A sign error or a mixed up index in one layer can still lower the error on the network of a test; that the step is a descent direction for every network needs the chain rule through all layers.", "anchors": ["src/perceptron.hpp: MultiLayerPerceptron::backpropagate", "src/perceptron.hpp: MultiLayerPerceptron::feed_forward"]}
{"id": "C115", "title": "A Hoeffding tree splits exactly when the evidence suffices", "statement": "While the root is a leaf, a training point makes it split exactly if, among the averages over all training points so far of the information gains of the candidate split points, the largest is positive and exceeds the second largest by more than sqrt(2 ln(1/delta) / n), n the number of training points. In particular the root stays a leaf while n times the square of log2(number of labels) is at most 2 ln(1/delta), and always if all points have the same label. A split means that the difference exceeds Hoeffding's bound sqrt(R^2 ln(1/delta) / (2n)) for the range R = log2(number of labels) of the information gain.", "quantifier": "all histories of set_feature_limits, train, predict and calls on the root node, all parameters, any number of labels, features and bins", "why_tests_cant": "The split decision depends on sums over the whole history; a test sees that a certain history splits, not that no other does too early.", "anchors": ["src/hoeffding_tree.hpp: HoeffdingTree::train", "src/hoeffding_tree.hpp: HoeffdingTree::Node::train"]}
{"id": "C116", "title": "A Hoeffding tree does not depend on the units of the features", "statement": "If every value of feature f, in training and in prediction, and every limit of feature f is replaced by its image under a strictly increasing function of that feature, then a tree whose limits are set first behaves the same: calls fail at the same time, the tree splits at the same time, and information gains, scores and predicted labels are the same.", "quantifier": "all strictly increasing functions per feature, all histories that start with set_limits, all parameters and query points", "why_tests_cant": "A comparison with the limit of another feature or a bin chosen with the wrong base shows up only for units that tests do not try.", "anchors": ["src/hoeffding_tree.hpp: HoeffdingTree::train", "src/hoeffding_tree.hpp: HoeffdingTree::predict", "src/hoeffding_tree.hpp: HoeffdingTree::Node::train", "src/hoeffding_tree.hpp: HoeffdingTree::Node::set_limits"]}
{"id": "C117", "title": "A Hoeffding tree does not depend on the names of the labels", "statement": "If the labels of all training points are renamed by a permutation, the tree splits at the same time, information gains are the same, every label gets the score of its old name, and the renamed label is predicted.", "quantifier": "all permutations of the labels, histories, parameters and query points", "why_tests_cant": "A counter array indexed with a wrong stride mixes labels only for particular label numbers.", "anchors": ["src/hoeffding_tree.hpp: HoeffdingTree::train", "src/hoeffding_tree.hpp: HoeffdingTree::predict", "src/hoeffding_tree.hpp: HoeffdingTree::Node::compute_entropy"]}
{"id": "C118", "title": "Sending a point down a coarse tree", "statement": "Called for any node of any tree after any history, pass_data_point_down returns the leaf that the splits select for the point, grows the boxes of the nodes on the way by just as much as is needed to contain the point, counts the point once for its label in that leaf and raises its fading score by one; nothing else changes, boxes stay nested and on their side of the splits. count_fe_down returns the sum of the numbers of forced extensions on the same way.", "quantifier": "all configurations, histories, nodes of all trees, points and labels", "why_tests_cant": "A wrong child or a box that is not extended shows up only for points that later fall between the old and the new bounds.", "anchors": ["src/mondrian_coarse.hpp: CoarseMondrianForest::pass_data_point_down", "src/mondrian_coarse.hpp: CoarseMondrianForest::count_fe_down"]}
{"id": "C119", "title": "Confining a coarse tree to one side of a split", "statement": "Called for any node after any history, adjust_boxes keeps the nodes whose boxes reach into the given side of the split, with their boxes cut down to that side, and removes the nodes on the other side.", "quantifier": "all configurations, histories, nodes of all trees, dimensions, split values and sides", "why_tests_cant": "Which nodes collapse depends on the position of all boxes relative to the split; tests try few positions.", "anchors": ["src/mondrian_coarse.hpp: CoarseMondrianForest::adjust_boxes"]}
{"id": "C120", "title": "Numbers of forced extensions", "statement": "With every way to trigger splits, to place them and to share forced extensions, no node ever has a negative number of forced extensions, a split does not create forced extensions, and with FE_DISTRIBUTION_PROPORTIONAL each side of a split gets the part that belongs to its points.", "quantifier": "all configurations, split configurations, random numbers and histories", "why_tests_cant": "The numbers depend on the order of forced extensions, trims and splits over a long history.", "anchors": ["src/mondrian_coarse.hpp: CoarseMondrianForest::split_node", "src/mondrian_coarse.hpp: CoarseMondrianForest::extend_block", "src/mondrian_coarse.hpp: CoarseMondrianForest::train"]}
{"id": "C121", "title": "MC-NN removes the clusters with the lowest participation", "statement": "With cleaning method 1 or 2, train first removes exactly the clusters with more than one point whose times (creation and absorbed points) add up to less than performance_thr percent of the sum of all times since their creation; with a threshold of at most 100 a cluster that has absorbed every point since its creation is never removed. With method 0 or 2, the cluster that makes place for a new one has the lowest such share.", "quantifier": "all histories, numbers of clusters, thresholds, cleaning methods and initial memory contents", "why_tests_cant": "The share depends on all times since the creation of a cluster; a wrong weight shows up only in long histories with several clusters.", "anchors": ["src/mc_nn.hpp: MCNN::train", "src/mc_nn.hpp: MCNN::clean_low_performance_clusters", "src/mc_nn.hpp: MCNN::get_lowest_participation", "src/mc_nn.hpp: MCNN::cluster::performance"]}
{"id": "C122", "title": "Reservoir sampling keeps its guarantees on streams of any length", "statement": "However many items were offered, every item of the stream is in the sample with probability sample_size / number of items, and no item is certain to be there once the stream is longer than the sample. The exponential reservoir keeps the newest item and never uses more than its array, on streams of any length.", "quantifier": "all stream lengths, sample sizes, items and random draws", "why_tests_cant": "A stream of 2^32 items is too long for a test, and the number of items is kept in 32 bits.", "anchors": ["src/reservoir_sampling.hpp: ReservoirSampling::add", "src/reservoir_sampling.hpp: ReservoirSampling::sample_index", "src/reservoir_sampling.hpp: ReservoirSampling::count", "src/reservoir_sampling.hpp: ExponentialReservoirSampling::add"]}
{"id": "C123", "title": "The chained reservoir keeps working on streams of any length", "statement": "add never aborts the program, however many items were added before and whether or not obsolete is called.", "quantifier": "all histories of add and obsolete, sample sizes, timestamps and random draws", "why_tests_cant": "The failure needs thousands of items per slot that are chained without being sampled, and depends on random draws.", "anchors": ["src/chained_reservoir.hpp: ChainedReservoirSampling::add", "src/chained_reservoir.hpp: ChainedReservoirSampling::push_on_chain"]}
{"id": "C124", "title": "The metrics' scores are right despite rounding", "statement": "With scores computed in doubles: the error rate is in [0, 1], is 0 exactly when no error was recorded and 1 exactly when only errors were, and two objects with at most 2^25 items each are ranked by score as by error rate. Up to 2^26 items kappa is a number exactly when it is defined, is in [-1, 1], is 1 exactly when all predictions were right, and is within 2^-52 of Cohen's kappa; its score is in [0, 1].", "quantifier": "all histories of update and reset within the given number of items, all numbers of labels, every faithful rounding of the double operations", "why_tests_cant": "Rounding errors depend on the counts; no finite set of counts shows that a score never leaves its range or that a ranking is never inverted.", "anchors": ["src/metrics.hpp: ErrorMetrics::score", "src/metrics.hpp: KappaMetrics::kappa", "src/metrics.hpp: KappaMetrics::score"]}
{"id": "C125", "title": "A coarse forest is not affected by other forests of the same type", "statement": "All coarse Mondrian forests of one type share a static variable that remembers the node given out last. Two forests constructed in the same way and given the same calls in the same order behave in the same way whatever other forests of that type do before and between these calls: both histories are defined or both are not, the same random numbers are used, the same number of nodes is free, the trees are the same up to the places of their nodes in memory, predict returns the same labels and train the same values.", "quantifier": "all configurations of tree management, extension and trimming (default split trigger), all histories of train, predict, trimming and fading, all interleaved changes of the shared variable, all random sequences in [0, 1), all log and exp functions", "why_tests_cant": "The interference depends on how calls on several objects are interleaved; tests use one object at a time.", "anchors": ["src/mondrian_coarse.hpp: available_node", "src/mondrian_coarse.hpp: train", "src/mondrian_coarse.hpp: predict", "src/mondrian_coarse.hpp: tree_trim", "src/mondrian_coarse.hpp: tree_fade_counts"]}
{"id": "C126", "title": "Coarse forest: the units and the origin of the features do not matter", "statement": "If every value v of feature i is replaced by a * v + b_i with one factor a > 0 for all features, the lifetime is divided by a and the discount factor multiplied by a, the coarse Mondrian forest uses the same random numbers, train returns the same, the same number of nodes is free and the same labels are predicted.", "quantifier": "all configurations of tree management, extension and trimming (default split trigger), all histories, all factors a > 0 and origins b, all random sequences in [0, 1); in exact arithmetic", "why_tests_cant": "A statement about two related histories of any length; tests compare few fixed values.", "anchors": ["src/mondrian_coarse.hpp: train", "src/mondrian_coarse.hpp: predict", "src/mondrian_coarse.hpp: extend_block"]}
{"id": "C127", "title": "Coarse forest: the names of the labels do not matter", "statement": "If the labels of all training points are renamed by a permutation, the coarse Mondrian forest uses the same random numbers, train returns the same, the same number of nodes is free, every label gets the same votes under its new name, and predict returns the renamed label.", "quantifier": "all permutations of the labels, all configurations of tree management, extension and trimming (default split trigger), all histories and all random sequences in [0, 1); in exact arithmetic", "why_tests_cant": "A statement about two related histories of any length; tests use one numbering of the labels.", "anchors": ["src/mondrian_coarse.hpp: train", "src/mondrian_coarse.hpp: predict"]}
{"id": "C128", "title": "The votes of a Mondrian forest are a probability distribution", "statement": "With a uniform base measure, the posterior means that predict averages over the trees are nonnegative and add up to 1, for every query after every history.", "quantifier": "all histories of train and predict, all queries, all memory sizes and numbers of trees, all random sequences in [0, 1), in exact arithmetic", "why_tests_cant": "It must hold at every point of the feature space after every history; the tests only look at the predicted label.", "anchors": ["src/mondrian.hpp: compute_posterior_mean", "src/mondrian.hpp: predict_tree", "src/mondrian.hpp: predict", "src/mondrian_unbound.hpp: compute_posterior_mean", "src/mondrian_unbound.hpp: predict_tree"]}
{"id": "C129", "title": "Counters on long streams", "statement": "The counters that the metrics, MC-NN and the Mondrian forests keep of the stream are exact for every history with fewer than 2^31 items (2^63 for the unbounded forest; less the error threshold for MC-NN), whatever the history; for the metrics, MC-NN and the bounded forest this limit cannot be raised.", "quantifier": "all histories of calls of any length, all parameters; the exact length from which a counter overflows", "why_tests_cant": "The lengths in question are of the order of 2^31 calls; no test runs that long.", "anchors": ["src/metrics.hpp: ErrorMetrics", "src/metrics.hpp: KappaMetrics", "src/metrics.hpp: ReservoirSamplingMetrics", "src/mc_nn.hpp: train", "src/mc_nn.hpp: cluster::incorporate", "src/mc_nn.hpp: cluster::performance", "src/mondrian.hpp: train", "src/mondrian.hpp: sample_block", "src/mondrian_unbound.hpp: update_counters"]}
{"id": "C130", "title": "MC-NN learns well separated classes", "statement": "With cleaning method 0 and room for one cluster per label, MC-NN trained in any order on classes that are well separated (largest squared distance A within a class, smallest squared distance B between classes, 3A < 2B and A below the initial distance bound 1000000) keeps exactly one cluster per label, whose centroid is the mean of the training points of the label, and then predicts the label of every training point and of every query that is as close to one class and as far from the others as its own points are.", "quantifier": "all numbers of features and clusters, all error thresholds, all training sequences in any order, all queries", "why_tests_cant": "A test trains on a few classes in a few orders; that no order splits a cluster or moves a centroid needs every sequence.", "anchors": ["src/mc_nn.hpp: train", "src/mc_nn.hpp: predict", "src/mc_nn.hpp: find_nearest_clusters", "src/mc_nn.hpp: count_clusters", "src/mc_nn.hpp: cluster::incorporate", "src/mc_nn.hpp: cluster::distance"]}
{"id": "C131", "title": "Copies of a chained reservoir are independent", "statement": "A copy of a chained reservoir shows what the original shows, and from then on the two objects are independent: what one of them shows depends on the calls made on it, not on those made on the other; no interleaving of calls leads to undefined behaviour.", "quantifier": "all sample sizes, all histories before the copy, all interleavings of add and obsolete on the original and on the copy, all random numbers", "why_tests_cant": "The effect needs a particular history before the copy and a particular interleaving after it; a test that copies an object and looks at it sees nothing.", "anchors": ["src/chained_reservoir.hpp: ChainedReservoirSampling", "src/chained_reservoir.hpp: add", "src/chained_reservoir.hpp: obsolete", "src/chained_reservoir.hpp: push_on_chain", "src/chained_reservoir.hpp: shift_chain", "src/chained_reservoir.hpp: clear_chain"]}
{"id": "C132", "title": "Settings read back as they were given", "statement": "A getter returns the value that was configured last, whatever was trained or predicted in between: get_smoothing the last value of set_smoothing or of the constructor, get_error_thr and get_performance_thr the values given to the constructor.", "quantifier": "all values of the settings, all histories of train, predict, set_smoothing and get_smoothing (Naive Bayes) and of train (MC-NN)", "why_tests_cant": "A test reads a setting back after a few calls and with values such as 50; it does not see values with a fraction or negative values, nor that no history can change a setting.", "anchors": ["src/naive_bayes.hpp: set_smoothing", "src/naive_bayes.hpp: get_smoothing", "src/mc_nn.hpp: get_error_thr", "src/mc_nn.hpp: get_performance_thr", "src/mc_nn.hpp: train"]}
{"id": "C133", "title": "A perceptron learns every linearly separable task", "statement": "A network without hidden layers whose activation is a step function (derivative 1), trained with feed_forward and backpropagate on any sequence of examples that a hyperplane separates with a margin, gives only a bounded number of wrong answers, whatever the order and the length of the sequence; after enough passes over a set of examples it answers all of them right.", "quantifier": "all numbers of inputs and outputs, all initial weights, all positive learning rates, all step functions with two values, all separable sequences of examples of any length", "why_tests_cant": "The bound holds for sequences of every length and order; a test trains one task from one starting point and looks at the end.", "anchors": ["src/perceptron.hpp: MultiLayerPerceptron", "src/perceptron.hpp: feed_forward", "src/perceptron.hpp: backpropagate"]}
{"id": "C134", "title": "A linear network makes a bounded total error", "statement": "A network without hidden layers and with a linear activation, trained with feed_forward and backpropagate on any sequence of examples that some weights explain exactly, with a learning rate below 2 divided by the largest squared input length: the sum of all squared errors is bounded however long the sequence is, the weights never move away from a solution, and presenting one example again and again multiplies its error by exactly 1 - rate (1 + |x|^2) each time.", "quantifier": "all numbers of inputs and outputs, all initial weights, all learning rates below the limit (all rates for the repeated example), all sequences of examples of any length", "why_tests_cant": "The bound is about sequences of every length; a test sees the error after a fixed number of steps.", "anchors": ["src/perceptron.hpp: MultiLayerPerceptron", "src/perceptron.hpp: feed_forward", "src/perceptron.hpp: backpropagate"]}
{"id": "C135", "title": "LTC does not depend on the origin of time and of the values, nor on the direction of the values", "statement": "Moving all timestamps by the same amount moves the transmitted timestamps by this amount and changes nothing else; moving all values (with min_value and max_value) moves the transmitted values; turning the values round (with min_value and max_value) turns round the transmitted values.", "quantifier": "all streams whatever their timestamps, all amounts, all values of epsilon, of the limits and of the time unit", "why_tests_cant": "The relation is between two runs on whole streams, for every stream; tests compare single streams with recorded answers.", "anchors": ["src/ltc.hpp: add", "src/ltc.hpp: need_transmit", "src/ltc.hpp: update", "src/ltc.hpp: get_value_to_transmit"]}
{"id": "C136", "title": "Transmitted points lie on the signal; epsilon 0 loses nothing", "statement": "Every point that LTC transmits is an integer of the declared range and within epsilon of the latest sample at its time; with consecutive timestamps it is at the time of a sample and within epsilon of that sample. With epsilon 0 and consecutive timestamps the lines joining the transmitted points go through every sample between them.", "quantifier": "all streams with increasing timestamps, all integer values in the declared range, all epsilon", "why_tests_cant": "The transmitted point is a truncated average of two truncated limits that depend on all samples of the segment; a test sees a few streams, and a rounding in the wrong direction only shows on some.", "anchors": ["src/ltc.hpp: add", "src/ltc.hpp: need_transmit", "src/ltc.hpp: update", "src/ltc.hpp: get_value_to_transmit"]}
{"id": "C137", "title": "Where the average splits a leaf", "statement": "With SPLIT_HELPER_AVG, whatever splits a call of train adds to a tree of CoarseMondrianForest separate the new point either from a box that does not contain it, or, when it lies in the box of a leaf, from the average of all training points so far (older points fading by fading_count), and the average is then inside the same box in the dimension of the split.", "quantifier": "all configurations with EXTEND_BARYCENTER, SPLIT_TRIGGER_NONE and SPLIT_HELPER_AVG, all sizes, numbers of trees and fading factors, all histories of calls, all points, all random numbers strictly between 0 and 1", "why_tests_cant": "The average depends on the whole history and the split on random numbers; a test would have to recompute both to see that a split is misplaced.", "anchors": ["src/mondrian_coarse.hpp: train", "src/mondrian_coarse.hpp: split_barycenter", "src/mondrian_coarse.hpp: extend_block4"]}
{"id": "C138", "title": "Copies of a HoeffdingTree", "statement": "A copy of a HoeffdingTree predicts what the original predicts at that moment, and from then on the two are independent: training one does not change what the other predicts, and both can be trained and asked further.", "quantifier": "all settings, all histories of calls before the copy is made, all interleavings of train and predict on the original and the copy afterwards", "why_tests_cant": "A test sees a copy that answers like the original and stops there; which object a node refers to shows only when both are trained, and the undefined behaviour only after a split made through the copy.", "anchors": ["src/hoeffding_tree.hpp: HoeffdingTree", "src/hoeffding_tree.hpp: Node", "src/hoeffding_tree.hpp: split", "src/hoeffding_tree.hpp: train", "src/hoeffding_tree.hpp: sort_in_leaf", "src/hoeffding_tree.hpp: get_left_child"]}
{"id": "C139", "title": "MC-NN with integer features", "statement": "MCNN instantiated with int features can be trained and asked with all points of moderate size. A cluster stands for points given with its label and lies at their mean, up to the truncation to integers, and a point is predicted as the label of the nearest cluster.", "quantifier": "all settings, all numbers of features and clusters, all histories of integer points within the stated bounds, all points asked", "why_tests_cant": "Tests use double features. With int, whether a run overflows depends on the sums a cluster has gathered when it is split, and tests with non-negative data never reach the unsigned division of a negative sum.", "anchors": ["src/mc_nn.hpp: split", "src/mc_nn.hpp: incorporate", "src/mc_nn.hpp: initialize", "src/mc_nn.hpp: centroid", "src/mc_nn.hpp: euclidean_distance", "src/mc_nn.hpp: train", "src/mc_nn.hpp: predict"]}
{"id": "C140", "title": "Order and signs of the neurons of a perceptron do not matter", "statement": "Two perceptrons that differ only in the order of the neurons of each layer (inputs and outputs included) and, if the activation function is odd, in the signs of some neurons, when trained with examples rearranged in the same way, give the same answers, rearranged, and report the same errors after every training. In particular two neurons of a hidden layer that start with the same weights keep the same weights for ever, so a network whose weights are all set to the same value never uses more than one neuron per hidden layer.", "quantifier": "all numbers and sizes of layers, all activation functions (odd ones for the signs), all learning rates, all rearrangements, all sequences of examples", "why_tests_cant": "Tests train one network with one initialisation and look at a few outputs; a symmetry has to hold for every order of the neurons and every history, and a bug that treats one position of a layer differently shows only in some of them.", "anchors": ["src/perceptron.hpp: feed_forward", "src/perceptron.hpp: backpropagate", "src/perceptron.hpp: set_weights"]}
{"id": "C141", "title": "Naive Bayes takes the Bayes decision", "statement": "If every label that was trained has total weight above 1 and no feature that is constant, predict returns the first of the labels with the largest posterior probability, where each feature of a label follows the normal law with the weighted mean and sample variance of its training points and the prior is its share of the weight. The scores are the logarithms of these probabilities up to one constant that is the same for all labels, although the code uses a rounded value of the square root of 2 pi. If the labels have equal weights and equal variances, the prediction is the label with the nearest mean, each feature measured in standard deviations.", "quantifier": "all numbers of labels and features, all training histories with positive weights, all points asked", "why_tests_cant": "A test compares predictions of a few points of one data set. That the rounded constant never changes a decision, and that ties go to the first label, are statements about all data sets and points.", "anchors": ["src/naive_bayes.hpp: predict", "src/naive_bayes.hpp: train", "src/naive_bayes.hpp: probability_density"]}
{"id": "C142", "title": "Weights of naive Bayes are repetitions", "statement": "The predictions and scores of NaiveBayes depend only on the weighted collection of the training points. A point trained with weight n counts like n points with weight 1, a weight may be divided in any way between repetitions of the point, a point of weight 0 counts for nothing, and the order does not matter.", "quantifier": "all training histories with non-negative weights, all divisions of weights, all points asked, all choices of the external functions", "why_tests_cant": "The estimators are updated incrementally with the weight, so the effect of a weight depends on the whole history before it; tests can only compare a few histories.", "anchors": ["src/naive_bayes.hpp: train", "src/naive_bayes.hpp: predict"]}
{"id": "C143", "title": "The gain reported for a limit is that of the split made there", "statement": "The user sets the limits of the root, in increasing order for each feature, and trains. The information gain that compute_information_gain of the root reports for a limit is that of dividing the training points by the split that the tree makes at this limit: points that would go to the left child against points that would go to the right child.", "quantifier": "all numbers of features, bins and labels, all limits in increasing order, all training histories that keep the root a leaf, all training points that split it", "why_tests_cant": "The gain is computed from counters that were filled point by point; whether they agree with the routing of the points is a statement about all histories, and the disagreement only shows for points that lie exactly on a limit.", "anchors": ["src/hoeffding_tree.hpp: train", "src/hoeffding_tree.hpp: compute_information_gain", "src/hoeffding_tree.hpp: sort_in_leaf", "src/hoeffding_tree.hpp: split"]}
{"id": "C144", "title": "The time at which a group of training points is separated is exponential", "statement": "With ideal independent uniform random numbers, after any history of calls of train and predict on a new MondrianForest with enough nodes or on a new MondrianForestUnbound: for every tree k, every group of training points and every time T_k up to the lifetime, the probability that no tree separates its group by a split with a time before T_k is exp(- sum over k of T_k * (sum of the side lengths of the smallest box around the group of tree k)). So the separation time of a group is exponential, cut at the lifetime; in particular the time of the first split of a tree is exponential with the size of the smallest box around all training points as rate, in whatever order they came.", "quantifier": "every history, every number of trees, every choice of the groups and the times", "why_tests_cant": "The law of a time depends on all the random splits of a history; it cannot be read off runs.", "anchors": ["src/mondrian.hpp: MondrianForest::train", "src/mondrian_unbound.hpp: MondrianForestUnbound::train", "src/mondrian.hpp: MondrianForest::extend_block", "src/utils.hpp: Utils::rand_exponential"]}
{"id": "C145", "title": "A forest trained point by point has the law of Mondrian trees sampled at once, whatever the order", "statement": "With ideal independent uniform random numbers, after any history of calls of train and predict on a new MondrianForest with enough nodes or on a new MondrianForestUnbound, the trees are independent and each has the law of a Mondrian tree that is sampled from scratch for the set of all training points: the first split time is exponential with the size of the smallest box around the points as rate, the dimension is chosen in proportion to the side lengths, the value is uniform, the points on both sides have independent trees that start at that time, and there are no splits after the lifetime. So for all measurable sets of trees the probability that tree k is in its set does not depend on the order in which the points were given.", "quantifier": "every history with at least one training point, every number of trees, every choice of measurable sets of trees", "why_tests_cant": "The law of whole trees, with their continuous split times and values, cannot be compared between two training orders by sampling.", "anchors": ["src/mondrian.hpp: MondrianForest::train", "src/mondrian_unbound.hpp: MondrianForestUnbound::train", "src/mondrian.hpp: MondrianForest::extend_block", "src/utils.hpp: Utils::rand_exponential"]}
{"id": "C146", "title": "The law of the predictions of a Mondrian forest does not depend on the training order", "statement": "With ideal independent uniform random numbers, after any history of calls of train and predict on a new MondrianForest with enough nodes or on a new MondrianForestUnbound, the probability that predict gives any finite list of queries a given list of labels is the same for all histories with the same training points, in whatever order they were given and whatever predictions were made in between: it is the probability for independent Mondrian trees sampled from scratch for the training points. Also the joint law of all trees is the product law of such trees.", "quantifier": "every pair of histories whose training points are permutations of each other, every number of trees, every list of queries and labels", "why_tests_cant": "Tests see single runs; equality of the laws for all orders is a statement about all random numbers and all histories.", "anchors": ["src/mondrian.hpp: MondrianForest::train", "src/mondrian.hpp: MondrianForest::predict", "src/mondrian_unbound.hpp: MondrianForestUnbound::train", "src/mondrian_unbound.hpp: MondrianForestUnbound::predict"]}
{"id": "C147", "title": "The trees of a CoarseMondrianForest with the original extension are independent Mondrian trees, in whatever order the points come", "statement": "With ideal independent uniform random numbers, a CoarseMondrianForest with EXTEND_ORIGINAL and PHOENIX_MANAGEMENT and enough memory for the training points has, after any history of train, predict with all trees, tree_fade_counts and uses of other objects: independent trees with the law of Mondrian trees sampled from scratch for the training points; the time at which a tree separates a group of training points is exponentially distributed with the sum of the side lengths of the group as rate, up to the lifetime; and the probability that any finite list of queries gets a given list of labels is the same for all histories with the same training points in any order, for all sizes of the memory and all trimming strategies that leave two nodes free.", "quantifier": "every history, pair of histories with the same training points, number of trees, memory size, group of points, list of queries", "why_tests_cant": "Equality of laws is a statement about all random numbers and all histories.", "anchors": ["src/mondrian_coarse.hpp: CoarseMondrianForest::train", "src/mondrian_coarse.hpp: CoarseMondrianForest::predict", "src/mondrian_coarse.hpp: CoarseMondrianForest::extend_block0"]}
{"id": "C148", "title": "The memory a Mondrian forest needs does not grow with the stream", "statement": "With ideal independent uniform random numbers and training points in a box with sides l_1, ..., l_F: after any history of train and predict the expected number of nodes of a MondrianForestUnbound with n trees is at most n (2 (1 + lifetime l_1) ... (1 + lifetime l_F) - 1), whatever the number of training points. The probability that it has more than m nodes is at most this number divided by m + 1. Except with that probability a MondrianForest with room for m nodes, and a CoarseMondrianForest with EXTEND_ORIGINAL, PHOENIX_MANAGEMENT and room for m nodes (two more with trimming), has the same trees and gives the same predictions as the unlimited forest. So for every box and every probability there is a memory size that is enough for streams of every length.", "quantifier": "every history of any length, number of trees, box, memory size, probability", "why_tests_cant": "An expectation over all random numbers, uniform in the length of the history.", "anchors": ["src/mondrian.hpp: MondrianForest::train", "src/mondrian_unbound.hpp: MondrianForestUnbound::train", "src/mondrian_coarse.hpp: CoarseMondrianForest::train"]}
{"id": "C149", "title": "Naive Bayes is consistent: on independent examples of the same law the estimates converge and the predictions become the Bayes decision", "statement": "Let the training examples be (pairwise) independent with the same law, with features of finite variance. Almost surely, as the number of training examples grows: for every label with positive probability, the weight of the label relative to the total weight converges to its probability, and the mean and the sample variance held for each feature converge to the mean and the variance of the feature for that label. If no feature is constant for a label, then almost surely, for every query at once, when one label has the largest product of its probability and the normal densities with these means and variances, predict returns that label after all but finitely many numbers of training examples. Labels of probability 0 do not disturb this.", "quantifier": "every law of the examples with finite variances, probability space, query, number of labels and features", "why_tests_cant": "A limit over infinitely many random histories, for all laws.", "anchors": ["src/naive_bayes.hpp: NaiveBayes::train", "src/naive_bayes.hpp: NaiveBayes::predict", "src/naive_bayes.hpp: GaussianEstimator::train"]}
{"id": "C150", "title": "A Mondrian forest learns classes that are apart", "statement": "With ideal independent uniform random numbers, after any history of train and predict on a new MondrianForestUnbound with n trees and F features: if q was given with label c, and all training points with other labels differ from q by at least d in some feature, then except with probability at most 2 n F exp(-lifetime d) the leaf of q in every tree has only training points with label c. If in addition the discount factor is 0, the training points lie in a box with sides l_1, ..., l_F, and q was given k times with label c where 2^H < k (1 - base_measure), then predict returns c for q except with probability at most 2 n F exp(-lifetime d) + n (2 (1 + lifetime l_1) ... (1 + lifetime l_F) - 1) / (2 H + 3); the same holds for a MondrianForest with room for at least 2 H + 2 nodes, and for a CoarseMondrianForest with EXTEND_ORIGINAL and PHOENIX_MANAGEMENT with room for 2 H + 2 nodes (two more with trimming). So for every box, distance and error probability there are a lifetime, a number of repetitions and a number of nodes that are enough for streams of every length.", "quantifier": "every history of any length, point, label, distance, number of trees, box, error probability", "why_tests_cant": "A probability over all random numbers, uniform in the length of the history and in the positions of the other training points.", "anchors": ["src/mondrian.hpp: MondrianForest::train, MondrianForest::predict", "src/mondrian_unbound.hpp: MondrianForestUnbound::train, MondrianForestUnbound::predict"]}
{"id": "C151", "title": "LTC sends at most one point per change of slope", "statement": "For an LTC object with time unit 1 that is given integer samples within the declared range at consecutive timestamps, the number of add calls that return true is at most the number of inner samples at which the slope of the signal changes. A signal on one straight line is never transmitted, however long it is.", "quantifier": "every stream of any length, every epsilon, every declared range", "why_tests_cant": "A bound on the number of transmissions that must hold for every stream, although the code truncates its limits and starts every segment at a point that is not a sample.", "anchors": ["src/ltc.hpp: LTC::add, LTC::need_transmit, LTC::get_value_to_transmit"]}
{"id": "C152", "title": "Means over the reservoir estimate the mean of the stream", "statement": "With ideal independent uniform random numbers, when the numbers x_1, ..., x_N have been added to a ReservoirSampling of k <= N slots, the mean of the k numbers in the array has expectation equal to the mean of all N numbers, and its expected squared error is exactly (variance of the N numbers / k) * (N - k) / (N - 1). So it is wrong by d or more with probability at most variance / (k d^2), whatever the length of the stream, the order of the numbers and the initial contents of the array.", "quantifier": "every stream of numbers of any length, every sample size, every initial contents of the array", "why_tests_cant": "Expectations over all random numbers, for every stream.", "anchors": ["src/reservoir_sampling.hpp: ReservoirSampling::add, ReservoirSampling::sample_index, Reservoir::operator[]"]}
{"id": "C153", "title": "A Hoeffding tree splits on a stream of independent examples, unless limits tie", "statement": "Set limits, in increasing order for each feature, on a new HoeffdingTree with memory for three nodes, and train it with independent examples of the same distribution. If the side of one limit gives more information about the label (mutual information in bits) than the side of any other limit, then with probability 1 the root is split after finitely many examples, and it stays split. The same holds for every single stream in which the share of the examples of each label on each side of each limit converges, with the information computed from these shares. But if every limit divides the examples like some other limit (for instance because every feature is given twice), the root is never split, however informative the features are: there is no rule for ties.", "quantifier": "every distribution of examples, every number of features, bins and labels, every confidence parameter, every stream with converging shares", "why_tests_cant": "Liveness in the limit of infinite streams, almost surely over all streams.", "anchors": ["src/hoeffding_tree.hpp: HoeffdingTree::train, HoeffdingTree::Node::train, HoeffdingTree::Node::set_limits, HoeffdingTree::Node::compute_information_gain"]}
{"id": "C154", "title": "A Hoeffding tree learns labels that its features determine", "statement": "Train a new HoeffdingTree, with limits set, with independent examples of the same distribution, such that the side of one limit determines the label. In the long run the tree predicts the right label for the examples, with probability 1.", "quantifier": "every distribution of examples in which a limit determines the label, every number of features, bins and labels, every confidence parameter", "why_tests_cant": "Consistency in the limit of infinite streams, almost surely over all streams.", "anchors": ["src/hoeffding_tree.hpp: HoeffdingTree::train, HoeffdingTree::predict, HoeffdingTree::Node::split"]}
{"id": "C155", "title": "The metrics estimate the error probability and kappa of a classifier", "statement": "Give an ErrorMetrics or KappaMetrics object n >= 1 independent (truth, prediction) pairs of the same distribution. The score of ErrorMetrics differs by t or more from the probability of a wrong prediction with probability at most 2 exp(-2 n t^2), for every n and t, and converges to it with probability 1. If truth and prediction are not constantly one and the same label, kappa of KappaMetrics is a number after all but finitely many numbers of pairs and converges, with probability 1, to Cohen's kappa of the distribution of the pairs.", "quantifier": "every distribution of pairs, every number of labels, every number of pairs below 2^31, every tolerance", "why_tests_cant": "Probabilities over all streams of pairs.", "anchors": ["src/metrics.hpp: ErrorMetrics::update, ErrorMetrics::score, KappaMetrics::update, KappaMetrics::kappa"]}
{"id": "C156", "title": "The exponential reservoir estimates exponentially weighted sums and is soon full", "statement": "Add N numbers to a new ExponentialReservoirSampling object of k slots, with ideal independent uniform random numbers. The expected sum of the numbers it then holds is the sum of all N numbers with weight (1-1/k)^age, where the newest has age 0. The expected number of numbers it holds is k(1-(1-1/k)^N), the sum of these weights. It is full except with probability at most k(1-1/k)^N.", "quantifier": "every number of slots below 2^31, every stream of numbers of every length, every initial content of the array", "why_tests_cant": "Expectations and probabilities over all sequences of random numbers.", "anchors": ["src/reservoir_sampling.hpp: ExponentialReservoirSampling::add", "src/reservoir_sampling.hpp: ExponentialReservoirSampling::sample_index", "src/reservoir_sampling.hpp: ExponentialReservoirSampling::count"]}
{"id": "C157", "title": "Large errors of estimates from the reservoir are exponentially unlikely", "statement": "Add N >= k numbers between a and b to a ReservoirSampling object of k slots, with ideal independent uniform random numbers. The mean of the k numbers in it differs by d or more from the mean of all N with probability at most 2 exp(-2 k d^2/(b-a)^2), whatever N. For items of any type and any yes/no property of items, the share of items with the property in the reservoir differs by d or more from their share in the stream with probability at most 2 exp(-2 k d^2).", "quantifier": "every k, every stream of N < 2^32 items, every range of values, every property of items, every tolerance d >= 0", "why_tests_cant": "Probabilities over all sequences of random numbers; events of probability below 10^-6 do not show in tests.", "anchors": ["src/reservoir_sampling.hpp: ReservoirSampling::add", "src/reservoir_sampling.hpp: ReservoirSampling::sample_index"]}
{"id": "C158", "title": "With many trees a Mondrian forest predicts the label with the largest expected vote", "statement": "Train a Mondrian forest of n trees with any points, with predictions in between, enough nodes and ideal independent uniform random numbers. If the expected vote of one Mondrian tree of the training points for a label at a query exceeds those for the other labels by a gap, the forest predicts this label except with probability at most L exp(-n gap^2/(8 B^2)), L the number of labels, B a bound that depends on the number of training points and the parameters only. So the probability of this answer tends to 1 with the number of trees, and two forests with their own random numbers, trained on the same points in any order, both give this answer except with the sum of the two bounds. The same holds of the forest with unbounded memory and of the coarse forest with the original extension and the phoenix memory management.", "quantifier": "every number of trees, every history of training and prediction calls, every query, every label, every gap > 0, every lifetime >= 0 and discount >= 0", "why_tests_cant": "A probability over all sequences of random numbers, for every history and number of trees.", "anchors": ["src/mondrian.hpp: MondrianForest::train, predict", "src/mondrian_unbound.hpp: MondrianForestUnbound::train, predict", "src/mondrian_coarse.hpp: CoarseMondrianForest::train, predict"]}
{"id": "C159", "title": "A stored element whose other bucket has room makes way for a new one", "statement": "If both candidate buckets of a new element are full, but a stored fingerprint in one of them has room in its other bucket, add succeeds for some values of the random numbers: for buckets of b places at least for all those of which the first chooses this bucket and the second lies in an interval of length 1/(b-1). No element found before is lost.", "quantifier": "every filter of any size, every new element, every place of its candidate buckets, every sequence of random numbers in [0,1[", "why_tests_cant": "Failure of add is blamed on bad luck; that no random numbers at all help can only be shown for all of them.", "anchors": ["src/cuckoo_filter.hpp: CuckooFilter::add"]}
{"id": "C160", "title": "Copies of kappa metrics are exact and independent", "statement": "In a program with any number of KappaMetrics objects, every object gives the kappa and the scores of a new object on which the calls that count for it were made: those made on it since it was last assigned to, after those that counted for the source at that time. Later calls on source or copy do not show in the other, and assigning an object to itself changes nothing.", "quantifier": "every number of labels, every program of constructions, updates, increase_error, reset and assignments on any number of objects, with labels in range", "why_tests_cant": "A copy that misses a row or shares state shows only for some label counts and some later interleavings; tests copy small matrices once.", "anchors": ["src/metrics.hpp: KappaMetrics::operator=", "src/metrics.hpp: KappaMetrics::score"]}
{"id": "C161", "title": "The outputs of a perceptron are accurate despite rounding", "statement": "feed_forward computed in floating point gives outputs that differ from those of the exact network function by at most an explicit bound: for layers of at most N neurons, weights of size at most M, inputs and outputs of size at most A and an activation function with Lipschitz constant L computed up to eta, the bound is (eta + L*d) times the sum of (L*N*M)^i over the layers, with d of the order of N+2 units in the last place of (N*A+1)*M. So an output that is exactly larger than another by more than twice the bound is computed as larger.", "quantifier": "every network, all weights and inputs within the bounds, every activation function, every rounding to nearest, every format with gradual underflow", "why_tests_cant": "The rounding error depends on all weights and inputs; tests compare a few outputs with a tolerance.", "anchors": ["src/perceptron.hpp: MultiLayerPerceptron::feed_forward"]}
{"id": "C162", "title": "Reservoir sampling with a random function of few values", "statement": "If the random function returns 0, 1/R, ..., (R-1)/R with equal probabilities, as rand()/(RAND_MAX+1.0) does, the probability of every event about the sample of k items after N adds differs from that with ideal random numbers by at most (N-k)*k/R; in particular every item is in the sample with probability k/N up to this difference. But from k*R items on every item is taken with probability 1/R, however long the stream is, so that the sample is forgotten at a constant rate.", "quantifier": "every sample size, every number R of values, every stream shorter than 2^32, every event about the sample, all independent random numbers", "why_tests_cant": "A deviation of a probability of this size does not show in a test of practical length.", "anchors": ["src/reservoir_sampling.hpp: ReservoirSampling::add", "src/reservoir_sampling.hpp: ReservoirSampling::sample_index"]}
{"id": "C163", "title": "Random functions that can return exactly 1", "statement": "The random function recommended by the README, rand()/RAND_MAX, returns numbers between 0 and 1 with both ends included. With such numbers every structure keeps its guarantees: shuffling stays inside the array and permutes it, drawing from a distribution returns an index in range, the cuckoo filter, the chained reservoir and the two other reservoirs stay inside their arrays, and every split introduced by training a Mondrian forest has the new point and the old points on different sides.", "quantifier": "every array, distribution, reservoir, filter and forest, every sequence of random numbers between 0 and 1, both included", "why_tests_cant": "rand() returns RAND_MAX once in two billion calls; no test waits for it.", "anchors": ["src/utils.hpp: Utils::shuffle", "src/utils.hpp: Utils::pick_from_distribution", "src/reservoir_sampling.hpp: ReservoirSampling::add", "src/reservoir_sampling.hpp: ExponentialReservoirSampling::add", "src/mondrian.hpp: MondrianForest::extend_block", "src/cuckoo_filter.hpp: CuckooFilter::add", "src/chained_reservoir.hpp: ChainedReservoirSampling::add"]}
{"id": "C164", "title": "Shuffling with a random function of few values", "statement": "If the random function returns 0, 1/R, ..., (R-1)/R with equal probabilities, the probability of every event about the shuffled array of n elements differs from that with ideal random numbers by at most (n-1)(n-2)/(2R); in particular each cyclic arrangement has probability 1/(n-1)! up to this difference. But if n > R+1 some element never comes to the last place.", "quantifier": "every array, every number R of values, every event about the result, all independent random numbers", "why_tests_cant": "Probabilities of arrangements and their impossibility cannot be read off a finite number of runs.", "anchors": ["src/utils.hpp: Utils::shuffle"]}
{"id": "C165", "title": "The exponential reservoir with a random function of few values", "statement": "If the random function returns 0, 1/R, ..., (R-1)/R with equal probabilities, the probability of every event about an exponential reservoir of k places after N adds differs from that with ideal random numbers by at most N*k/R; in particular the item at position p is in it with probability (1-1/k)^(N-1-p) up to this difference. But the reservoir never holds more than k-k/R+1 items: if R < k it is never full, however long the stream is.", "quantifier": "every size, every number R of values, every stream, every event about the reservoir, all random numbers", "why_tests_cant": "Probabilities, and what never happens on streams of any length, cannot be observed in finitely many runs.", "anchors": ["src/reservoir_sampling.hpp: ExponentialReservoirSampling::add", "src/reservoir_sampling.hpp: ExponentialReservoirSampling::sample_index", "src/reservoir_sampling.hpp: ExponentialReservoirSampling::count"]}
{"id": "C166", "title": "The memory of a chained reservoir is bounded", "statement": "The number of nodes that a chained reservoir obtains from its malloc function is bounded by a number that depends on the sample size and on the number of items that are not obsolete, however long the history is; nodes that are no longer needed are used again.", "quantifier": "every sample size, every history of add and obsolete calls, all timestamps and all random numbers", "why_tests_cant": "A leak shows only in the growth over histories of any length; the sample itself looks right.", "anchors": ["src/chained_reservoir.hpp: ChainedReservoirSampling::add", "src/chained_reservoir.hpp: ChainedReservoirSampling::obsolete", "src/chained_reservoir.hpp: ChainedReservoirSampling::push_on_chain", "src/chained_reservoir.hpp: ChainedReservoirSampling::shift_chain"]}
{"id": "C167", "title": "Drawing from a distribution with a random function of few values", "statement": "With a random function that has only R different values, such as rand()/(RAND_MAX+1.0), drawing from a distribution gives each index a probability within 1/R of its probability in the distribution, and an index of probability 0 is never drawn; so a split of a Mondrian tree is never drawn in a feature in which the new point is inside the box.", "quantifier": "every number of values R, every distribution, every index, every box and point of a Mondrian tree", "why_tests_cant": "The difference is a probability of the order of 1/RAND_MAX for each draw; no test run sees it.", "anchors": ["src/utils.hpp: Utils::pick_from_distribution", "src/utils.hpp: Utils::turn_array_into_probability", "src/mondrian.hpp: MondrianForest::extend_block"]}
{"id": "C168", "title": "The chained reservoir with a random function of few values", "statement": "With a random function that has only R different values, such as rand()/(RAND_MAX+1.0), what a chained reservoir of n slots shows after N items without obsolete calls has the same probability as with ideal random numbers up to (N-n)*n/R, whatever is asked about it; in particular the probability that a slot shows a given item.", "quantifier": "every number of values R, every sample size n, every stream of N items, n <= N < 5000, with timestamps other than zero, every property of the items shown, all random numbers that decide what is chained", "why_tests_cant": "The difference is of the order of 1/RAND_MAX for each item; a test cannot see it and cannot bound it.", "anchors": ["src/chained_reservoir.hpp: ChainedReservoirSampling::add", "src/chained_reservoir.hpp: ChainedReservoirSampling::operator[]"]}
{"id": "C169", "title": "rand_exponential with a random function of few values", "statement": "With a random function that has only R different values, such as rand()/(RAND_MAX+1.0), rand_exponential still gives an exponential variable: the probability that the value is at most x differs from that of the exponential law by at most 1/R, the value is never exactly 0 and can be arbitrarily large.", "quantifier": "every number of values R, every positive rate, every x >= 0, all random numbers; for the consequence in the Mondrian trees every box, every point outside it, all times", "why_tests_cant": "The value 0 and the missing large values have probabilities of the order of 1/RAND_MAX; a test cannot see them and cannot bound the difference.", "anchors": ["src/utils.hpp: rand_exponential", "src/mondrian.hpp: MondrianForest::train"]}
{"id": "C170", "title": "Training with a point seen before only counts it", "statement": "If a MondrianForest or MondrianForestUnbound is trained with a point that lies inside the box of the leaf it is routed to in every tree, in particular with the features of an earlier training point and any label, then the call succeeds without using a random number, whatever the random function and even when the memory is exhausted, and every tree is as before except that the counter of the label in that leaf is one higher (and, for the unbounded forest, the counters of split nodes follow those of the leaves).", "quantifier": "every history of train and predict calls that succeeds, every number of trees and nodes, every earlier point or point inside the boxes, every label, every sequence of random numbers for the new call", "why_tests_cant": "That no structure changes must hold for every tree the random numbers can produce and every such point, including forests whose memory is full.", "anchors": ["src/mondrian.hpp: MondrianForest::train", "src/mondrian.hpp: MondrianForest::extend_block", "src/mondrian_unbound.hpp: MondrianForestUnbound::train", "src/mondrian_unbound.hpp: extend_block"]}
{"id": "C171", "title": "The work of training a Mondrian forest is bounded by its memory", "statement": "A call of train of a MondrianForest asks for at most three random numbers for each level of its trees, predict asks for none; so N training calls ask for at most 3*N random numbers for each node of the memory, however long the stream is. A call of train of a MondrianForestUnbound asks for at most one for each level and two more for each tree, so N training calls ask for at most N*(N+3)/2 for each tree.", "quantifier": "every history of train and predict calls that succeeds, every number of trees and nodes, every point and label, all random numbers in [0,1[", "why_tests_cant": "A test sees the number of random numbers of some calls; the bound is for every shape of the trees and every outcome of the random choices, also when the memory is exhausted.", "anchors": ["src/mondrian.hpp: MondrianForest::train", "src/mondrian.hpp: MondrianForest::predict", "src/mondrian_unbound.hpp: MondrianForestUnbound::train"]}
