{"id": "C01", "title": "Hub state table is bounded and returned ids are valid", "statement": "However long the hub is used, the number of states it keeps never exceeds the configured maximum (or 10000 when the configured value is below 10), and every id NextState or ContextState returns is either -1 (only for a negative symbol that was never stored) or the index of an existing state (ContextState with a non-empty context always returns an existing state).", "quantifier": "every configuration, every component model behaviour, every history of NextState/ContextState/ExtractLMScores/UpdateLMCounts calls with arbitrary arguments", "why_tests_cant": "needs histories longer than the table and every interleaving of clients' state ids", "anchors": ["mozolm/models/language_model_hub.cc:AssignNewHubState", "mozolm/models/language_model_hub.cc:NextState", "mozolm/models/language_model_hub.cc:ContextState"]}
{"id": "C02", "title": "A state reached by a symbol reports that symbol", "statement": "For every existing or invalid source state and every non-negative symbol c, StateSym(NextState(s,c)) = c. An id that is not an existing state has no symbol (-1).", "quantifier": "every reachable hub, every source id, every symbol c >= 0", "why_tests_cant": "depends on the whole history of recycling of state ids", "anchors": ["mozolm/models/language_model_hub.cc:StateSym", "mozolm/models/language_model_hub.cc:NextState"]}
{"id": "C03", "title": "Repeating NextState is stable", "statement": "For an existing state s (or a negative id, standing for the start state), immediately repeating NextState(s,c) returns the same id and changes nothing in the hub. (False for the id just past the table, which the first call may create.)", "quantifier": "every reachable hub, every existing or negative s, every symbol c", "why_tests_cant": "must hold in every reachable table, including when the table is being recycled", "anchors": ["mozolm/models/language_model_hub.cc:NextState", "mozolm/models/language_model_hub.h:AddNextState"]}
{"id": "C04", "title": "A hub state denotes its context", "statement": "With static component models, in any history in which no state was recycled while it was being extended, the state reached for a context has, for each component model, exactly the state that model reaches by consuming the same symbols; a cached transition gives the same component states as recomputing it.", "quantifier": "every context string, every number of component models, every history", "why_tests_cant": "cached transitions depend on all earlier calls by all clients", "anchors": ["mozolm/models/language_model_hub.cc:NextState", "mozolm/models/language_model_hub.cc:ContextState", "mozolm/models/language_model_hub.cc:AssignNewHubState"]}
{"id": "C05", "title": "Recycling never leaves a stale cached transition", "statement": "If NextState(s,c) is answered from the hub's cache, the answered state is an existing state other than the start state, its symbol is c, and its recorded predecessor is s or none, never another state; it is s, and the answered state differs from s, in every history in which no state was recycled while being extended (in particular while the calls carry fewer symbols than the table has places). (That the answered state was always created from what s is now is false: when the recycled state is the one being extended the code makes it its own successor.)", "quantifier": "every reachable hub including arbitrarily many recycling rounds", "why_tests_cant": "requires overflowing the table in every possible order", "anchors": ["mozolm/models/language_model_hub.cc:AssignNewHubState", "mozolm/models/language_model_hub.cc:UpdateHubState", "mozolm/models/language_model_hub.h:ResetPrevState"]}
{"id": "C06", "title": "The start state is permanent", "statement": "State 0 always denotes the component models' start states; no history of calls overwrites it, and no transition leads back to it (other than as an error fallback). Its symbol stays 0.", "quantifier": "every reachable hub", "why_tests_cant": "needs unbounded histories", "anchors": ["mozolm/models/language_model_hub.cc:InitializeStartHubState", "mozolm/models/language_model_hub.cc:AssignNewHubState"]}
{"id": "C07", "title": "Context consumption composes", "statement": "Consuming context a then context b from the resulting state is the same, in result and in effect on the hub, as consuming ab at once; consuming the empty context returns the given state (0 for a negative one).", "quantifier": "all contexts, all hubs, all initial states", "why_tests_cant": "ranges over all strings and splits", "anchors": ["mozolm/models/language_model_hub.cc:ContextState", "mozolm/models/language_model.cc:ContextState"]}
{"id": "C08", "title": "Invalid state ids are refused without effect", "statement": "ExtractLMScores on an id that is not an existing state returns false, leaves the response untouched and changes nothing. Whenever UpdateLMCounts on such an id returns, it returns false and no component model's counts have changed; it always returns when no Bayesian history is configured or the symbol list is empty. (With Bayesian history it does not: a negative id, or one at or above the maximum table size, with at least one symbol indexes the state table out of bounds.)", "quantifier": "every reachable hub, every int id, every symbol list, every count", "why_tests_cant": "all ids and all reachable tables; the out-of-bounds branch is undefined behaviour", "anchors": ["mozolm/models/language_model_hub.cc:ExtractLMScores", "mozolm/models/language_model_hub.cc:UpdateLMCounts"]}
{"id": "C09", "title": "Interpolation weights are normalised", "statement": "After initialisation with two or more models the mixture weights, as probabilities, sum to one and keep the configured ratios.", "quantifier": "every number of models and every finite configured weight", "why_tests_cant": "all real weights and all model counts", "anchors": ["mozolm/models/language_model_hub.cc:InitializeModels"]}
{"id": "C10", "title": "Bayesian mixture weights follow the documented formula", "statement": "With static component models and history length j>0, in any history in which no state was recycled while being extended, the weight of model k at the state reached for a context is w_k * product of the model's probabilities of the last (up to) j symbols, normalised over models; the weights sum to one.", "quantifier": "every history, context, history length, number of models, weights and symbol probabilities (not all products zero)", "why_tests_cant": "all histories and all component scores", "anchors": ["mozolm/models/language_model_hub.cc:GetBayesianMixtureWeights", "mozolm/models/language_model_hub.h:GetBayesianMixtureWeights doc"]}
{"id": "C11", "title": "Mixed scores are a probability distribution", "statement": "When the hub mixes models the returned symbols are exactly the union of the component symbols, each once, in increasing order, and the returned probabilities are non-negative and sum to one.", "quantifier": "every list of component responses with at least one positive probability, every weights", "why_tests_cant": "all component outputs", "anchors": ["mozolm/models/language_model_hub.cc:MixResults", "mozolm/models/language_model_hub.cc:ExtractMixture", "mozolm/models/language_model_hub.cc:ExtractLMScores"]}
{"id": "C12", "title": "Mixed score is the weighted average", "statement": "The mixed probability of a symbol is proportional to the sum over models of weight times that model's probability (zero when the model lacks the symbol).", "quantifier": "every list of component responses and weights, every symbol", "why_tests_cant": "all component outputs", "anchors": ["mozolm/models/language_model_hub.cc:MixResults", "mozolm/models/language_model_hub.cc:ExtractMixture"]}
{"id": "C13", "title": "Bayesian history is the last j symbol costs", "statement": "With static component models, in any history in which no state was recycled while it was being extended, at a state reached by symbols c1..cn from start the stored history of model k is the negative log probabilities of the last j symbols (zero padded), most recent last, and the stored sum used for the weights is their sum.", "quantifier": "every symbol sequence, every j, every number of models", "why_tests_cant": "all sequences and lengths", "anchors": ["mozolm/models/language_model_hub.cc:LanguageModelHubState::UpdateBayesianHistory", "mozolm/models/language_model_hub.cc:UpdateBayesianHistory", "mozolm/models/language_model_hub.cc:InitBayesianHistory"]}
{"id": "C14", "title": "A non-positive count is a no-op", "statement": "UpdateLMCounts with count <= 0 returns true and changes no count of any model.", "quantifier": "every model type, state, symbol list, count <= 0", "why_tests_cant": "all arguments", "anchors": ["mozolm/models/simple_bigram_char_model.cc:UpdateLMCounts", "mozolm/models/ppm_as_fst_model.cc:UpdateLMCounts", "mozolm/models/ngram_fst_model.cc:UpdateLMCounts"]}
{"id": "C15", "title": "Bigram normaliser equals its row sum", "statement": "After a successful Read and any history of updates, the normaliser of every state equals the sum of that state's bigram counts and every count is at least one.", "quantifier": "every accepted vocabulary/count file and every history of updates", "why_tests_cant": "all files and histories", "anchors": ["mozolm/models/simple_bigram_char_model.cc:Read", "mozolm/models/simple_bigram_char_model.cc:ReadCountMatrix", "mozolm/models/simple_bigram_char_model.cc:UpdateLMCounts"]}
{"id": "C16", "title": "Bigram scores are a distribution", "statement": "For every state id (valid or not) ExtractLMScores returns one probability per vocabulary symbol in vocabulary order, each positive, summing to one, and -log of the entry is what SymLMScore returns.", "quantifier": "every reachable model, every state id, every symbol", "why_tests_cant": "all histories and ids", "anchors": ["mozolm/models/simple_bigram_char_model.cc:ExtractLMScores", "mozolm/models/simple_bigram_char_model.cc:SymLMScore"]}
{"id": "C17", "title": "Bigram counts are exactly the observations", "statement": "After any history the count of (i,j) is its initial value plus the sum of the counts of the updates for every time their symbol sequence moves from i to j; nothing else changes.", "quantifier": "every history of updates with arbitrary symbols and counts", "why_tests_cant": "all histories", "anchors": ["mozolm/models/simple_bigram_char_model.cc:UpdateLMCounts"]}
{"id": "C18", "title": "Bigram updates commute", "statement": "Applying a multiset of updates in any order gives the same model.", "quantifier": "every permutation of every list of updates", "why_tests_cant": "all permutations", "anchors": ["mozolm/models/simple_bigram_char_model.cc:UpdateLMCounts"]}
{"id": "C19", "title": "What bigram Read accepts, refuses and crashes on", "statement": "Read succeeds exactly when the vocabulary is non-empty, non-negative, strictly increasing, one symbol per line, below the largest int, and the count file (if any) is a square matrix of the right size; it does not return (uncaught exception or undefined behaviour) exactly when the vocabulary or count file is good up to a field that is not a number in range, or the vocabulary is empty, or contains the largest int, or the count file has a row too many; on every other input it reports an error. (That it reports an error on all malformed input is false.)", "quantifier": "every pair of input files", "why_tests_cant": "all file contents", "anchors": ["mozolm/models/simple_bigram_char_model.cc:ReadVocabSymbols", "mozolm/models/simple_bigram_char_model.cc:ReadCountMatrix", "mozolm/models/simple_bigram_char_model.cc:Read"]}
{"id": "C20", "title": "Bigram states and symbols correspond", "statement": "NextState(_,c) is the position of c in the vocabulary or -1, StateSym inverts it, and the state after a context depends only on its last symbol.", "quantifier": "every accepted vocabulary, every symbol and state", "why_tests_cant": "all vocabularies", "anchors": ["mozolm/models/simple_bigram_char_model.cc:NextState", "mozolm/models/simple_bigram_char_model.cc:StateSym", "mozolm/models/language_model.cc:ContextState"]}
{"id": "C21", "title": "Concurrent bigram reads are never torn", "statement": "Under any interleaving of any number of threads calling ExtractLMScores/UpdateLMCounts on one bigram model, every response is computed from a consistent pair of counts and normaliser (probabilities sum to one), every reached state is that of some sequential order of the updates, and the two locks never deadlock.", "quantifier": "every number of threads and every schedule", "why_tests_cant": "schedules are unbounded", "anchors": ["mozolm/models/simple_bigram_char_model.h:ABSL_GUARDED_BY", "mozolm/models/simple_bigram_char_model.cc:ExtractLMScores", "mozolm/models/simple_bigram_char_model.cc:UpdateLMCounts"]}
{"id": "C22", "title": "PPM total on the backoff arc equals the observed counts", "statement": "After any history of updates, at every context the total stored on the backoff arc is the end-of-string count plus the sum of its symbol counts; where nothing was observed it is one.", "quantifier": "every vocabulary, every well-formed count automaton satisfying it (with or without an additional vocabulary), every history of calls", "why_tests_cant": "all histories", "anchors": ["mozolm/models/ppm_as_fst_model.cc:UpdateModel", "mozolm/models/ppm_as_fst_model.cc:IncrementBackoffArcReturnBackoffState", "mozolm/models/ppm_as_fst_model.cc:AddNewState"]}
{"id": "C23", "title": "PPM probabilities follow the documented blending formula", "statement": "After any history, ExtractLMScores of a state gives every known symbol the probability (C(hs)+(U(h)*beta+alpha)P(s|h'))/(S(h)+alpha) of the current counts (the probability after the shorter context where nothing was observed, the relative frequency at the empty context), all positive and summing to one, with normalization S(h)+alpha of the longest context with observations; SymLMScore is minus its logarithm, infinite for unknown symbols.", "quantifier": "every well-formed model, every history of calls, every state, every alpha and beta (out of range ones are replaced by the defaults)", "why_tests_cant": "all models and parameters", "anchors": ["mozolm/models/ppm_as_fst_model.cc:UpdateCacheAtNonEmptyState", "mozolm/models/ppm_as_fst_model.cc:InitCacheProbs", "mozolm/models/ppm_as_fst_model.cc:UpdateIndexProb", "mozolm/models/ppm_as_fst_model.h: header comment (formula)"]}
{"id": "C24", "title": "PPM caching is transparent", "statement": "Every answer of the public functions (next state, scores, symbol score, update result, log probabilities) equals the one computed afresh from the current counts, whatever was cached, evicted or updated before; models that differ in the configured cache size only answer every history alike.", "quantifier": "every two cache sizes, every history of queries and updates on existing states", "why_tests_cant": "staleness depends on the whole access history", "anchors": ["mozolm/models/ppm_as_fst_model.cc:EnsureCacheAtState", "mozolm/models/ppm_as_fst_model.cc:LowerOrderCacheUpdated", "mozolm/models/ppm_as_fst_model.cc:GetNewCacheIndex"]}
{"id": "C25", "title": "PPM cache is bounded and consistent", "statement": "The cache never holds more than its configured maximum of entries, never holds two entries for one state, and its internal consistency errors are unreachable.", "quantifier": "every history of queries and updates", "why_tests_cant": "all histories", "anchors": ["mozolm/models/ppm_as_fst_model.cc:GetNewCacheIndex", "mozolm/models/ppm_as_fst_model.cc:FindOldestLastAccessedCache", "mozolm/models/ppm_as_fst_model.cc:EnsureCacheAtState"]}
{"id": "C26", "title": "PPM updates never fail on valid states", "statement": "In a model initialised from a vocabulary, UpdateLMCounts on any existing state, symbols and count succeeds, only adds states, keeps every arc and backoff inside the model and never creates a context longer than the maximum order.", "quantifier": "every vocabulary, max_order, history of updates", "why_tests_cant": "all histories", "anchors": ["mozolm/models/ppm_as_fst_model.cc:UpdateModel", "mozolm/models/ppm_as_fst_model.cc:NeedsNewState", "mozolm/models/ppm_as_fst_model.cc:AddNewState", "mozolm/models/ppm_as_fst_model.cc:UpdateLMCounts"]}
{"id": "C27", "title": "PPM counts use update exclusion", "statement": "UpdateLMCounts of one known symbol with count n > 0 increments by one the count of the symbol at each context from the state down to and including the longest one where it had been seen (by n at the state itself), creating it with count one where new, and changes no other count; an unknown symbol changes nothing.", "quantifier": "every well-formed model, every state and symbol", "why_tests_cant": "all models", "anchors": ["mozolm/models/ppm_as_fst_model.cc:UpdateModel", "mozolm/models/ppm_as_fst_model.cc:UpdateNotFoundState", "mozolm/models/ppm_as_fst_model.cc:UpdateHighestFoundState"]}
{"id": "C28", "title": "Static models never change", "statement": "A PPM model configured static, and the FST n-gram models, return true from UpdateLMCounts and answer every later query as before.", "quantifier": "every history", "why_tests_cant": "all histories", "anchors": ["mozolm/models/ppm_as_fst_model.cc:UpdateLMCounts", "mozolm/models/ngram_fst_model.cc:UpdateLMCounts"]}
{"id": "C29", "title": "Word-model prefix states are stable and unique", "statement": "A prefix state id returned once keeps its meaning for ever; asking again for the same (model state, prefix length, first word) returns the same id; different keys get different ids; ids never collide with n-gram states.", "quantifier": "every history of state requests", "why_tests_cant": "all histories", "anchors": ["mozolm/models/ngram_word_fst_model.cc:NGramImplicitStates::GetState", "mozolm/models/ngram_word_fst_model.cc:NGramImplicitStates::AddNewState"]}
{"id": "C30", "title": "Word order tables are inverse permutations", "statement": "Sorting the vocabulary gives tables order/position that are mutually inverse permutations with epsilon first and the unknown word last. (False when the vocabulary has <unk>: the code overwrites an entry of the order table and never sets the position of <unk>.)", "quantifier": "every symbol table", "why_tests_cant": "all vocabularies", "anchors": ["mozolm/models/ngram_word_fst_model.cc:EstablishLexicographicOrdering"]}
{"id": "C31", "title": "Prefix ranges are exact", "statement": "The range of words attached to a prefix state is exactly the set of vocabulary words that start with that prefix.", "quantifier": "every vocabulary without <unk> or with it as the last label (words nonempty, without spaces), every typed prefix, every history", "why_tests_cant": "all vocabularies and prefixes", "anchors": ["mozolm/models/ngram_word_fst_model.cc:GetBeginEndIndices", "mozolm/models/ngram_word_fst_model.cc:NextFirstLetterState", "mozolm/models/ngram_word_fst_model.cc:NextState"]}
{"id": "C32", "title": "Next-character scores are the word marginals", "statement": "At the state of a typed prefix p in context h, ExtractLMScores lists exactly the letters that continue some vocabulary word, the space if p is a word, and the end of the text if possible. The probability of a letter is the total probability (given h) of the words starting with p and that letter, divided by that of all words starting with p (before the first letter, of all words and the end of the text); the share of a completed word is split between space and end of the text in the ratio the model gives after that word; each is listed once and they sum to one. SymLMScore is minus the logarithm of what is listed, infinite for what is not. At out-of-vocabulary and nonexistent states nothing is listed.", "quantifier": "every deterministic automaton and vocabulary (words without spaces, <unk> absent or last), every weights, every history of calls, every prefix with positive mass; exact real arithmetic", "why_tests_cant": "all vocabularies and weights", "anchors": ["mozolm/models/ngram_word_fst_model.cc:ExtractLMScores", "mozolm/models/ngram_word_fst_model.cc:GetRangeCost", "mozolm/models/ngram_word_fst_model.cc:GetNextCharEnds"]}
{"id": "C33", "title": "Word-model caching is transparent and bounded", "statement": "Cumulative word probabilities served from the cache equal those computed afresh, and the cache never exceeds its maximum.", "quantifier": "every history of queries, every cache size above the model order", "why_tests_cant": "all histories", "anchors": ["mozolm/models/ngram_word_fst_model.cc:FillWeightVector", "mozolm/models/ngram_word_fst_model.cc:EnsureCacheIndex", "mozolm/models/ngram_word_fst_model.cc:GetNewCacheIndex"]}
{"id": "C34", "title": "Backoff search finds the longest matching context", "statement": "For acyclic backoff the search for a label terminates; the state reached is the destination of the first arc with the label along the backoff chain, the unigram state if there is none; the cost is the sum of the backoff costs walked and the arc cost, infinite if there is none; the end of string likewise with final weights.", "quantifier": "every automaton with acyclic backoff, every state and label", "why_tests_cant": "all automata", "anchors": ["mozolm/models/ngram_fst_model.cc:NextModelState", "mozolm/models/ngram_fst_model.cc:GetBackoff", "mozolm/models/ngram_char_fst_model.cc:LabelCostInState", "mozolm/models/ngram_char_fst_model.cc:FinalCostInState"]}
{"id": "C35", "title": "Character n-gram scores are a distribution over the symbol table", "statement": "ExtractLMScores returns end-of-string first, then each non-epsilon symbol in table order; probabilities are non-negative and sum to one when some cost is finite.", "quantifier": "every automaton and state", "why_tests_cant": "all automata", "anchors": ["mozolm/models/ngram_char_fst_model.cc:ExtractLMScores", "mozolm/models/language_model.cc:SoftmaxRenormalize"]}
{"id": "C36", "title": "Unknown characters take the backoff arc", "statement": "For a character n-gram model without <unk>, NextState on a character outside the vocabulary is one backoff step and its cost is that backoff cost; only at a state without a backoff arc is it the unigram state, at infinite cost. (The documented behaviour, always the unigram state (ngram_fst_model.h), is false: label -1 makes the OpenFst matcher match the backoff arc.)", "quantifier": "every automaton, state and out-of-vocabulary symbol", "why_tests_cant": "all automata", "anchors": ["mozolm/models/ngram_fst_model.h:NextModelState", "mozolm/models/ngram_char_fst_model.cc:SymLabel", "mozolm/models/ngram_fst_model.cc:NextModelState"]}
{"id": "C37", "title": "The server refuses every invalid state", "statement": "GetLMScores with empty context refuses (INVALID_ARGUMENT), without changing anything, every state id that fits in 32 bits, is non-negative and does not exist; and refuses nothing else. (As stated in the proto for every int64 id it is false: larger ids are truncated to int; negative ids mean the start state; UpdateLMScores accepts the id just past the table.)", "quantifier": "every 64-bit state id", "why_tests_cant": "all 2^64 ids", "anchors": ["mozolm/grpc/server_async_impl.cc:HandleRequest"]}
{"id": "C38", "title": "Pending-RPC accounting is exact", "statement": "In every schedule the pending counter equals the number of live call objects (plus those being requested, plus those deleted but not yet subtracted), is never negative, each request taken up gets exactly one reply and its objects are freed exactly once.", "quantifier": "every schedule of requests, completions and shutdown", "why_tests_cant": "schedules", "anchors": ["mozolm/grpc/server_async_impl.cc:IncrementRpcPending", "mozolm/grpc/server_async_impl.cc:DecrementRpcPending", "mozolm/grpc/server_async_impl.cc:ProcessGetLMScore", "mozolm/grpc/server_async_impl.cc:CleanupAfterGetLMScore"]}
{"id": "C39", "title": "Every request taken up is answered before the queue is shut down", "statement": "At the time the completion queue is shut down no request is being processed or waiting to be, every request taken up has been answered exactly once, and no reply is ever started afterwards, in every schedule and with any number of concurrent Shutdown calls. (That the queue is shut down only when no RPC is pending is false: the completion notification is already given when the server starts, so Shutdown does not wait, and a call being requested during start-up is requested on the dead queue.)", "quantifier": "every schedule", "why_tests_cant": "schedules", "anchors": ["mozolm/grpc/server_async_impl.cc:Shutdown", "mozolm/grpc/server_async_impl.cc:BuildAndStart"]}
{"id": "C40", "title": "No request is accepted after shutdown", "statement": "Once Shutdown has set its flag no further call is ever registered (the calls created plus those already registered stay the same), pending never increases, no request arrives once the server is down, and once all completions are delivered and handled pending is zero and no call object is left.", "quantifier": "every schedule", "why_tests_cant": "schedules", "anchors": ["mozolm/grpc/server_async_impl.cc:IncrementRpcPending", "mozolm/grpc/server_async_impl.cc:Shutdown"]}
{"id": "C41", "title": "Random choice is in range and proportional", "statement": "The sampled position is a valid index of a non-empty score list and the first at which the cumulative probability reaches the threshold (the last index if none does); with a uniform threshold index i is drawn with probability exactly p_i.", "quantifier": "every score list and threshold", "why_tests_cant": "all lists and reals", "anchors": ["mozolm/grpc/client_helper.cc:GetRandomPosition"]}
{"id": "C42", "title": "Random generation terminates within bounds", "statement": "RandGen always stops, after at most 128 generated symbols, the result starts with the context string, and every appended symbol was offered by the server.", "quantifier": "every server behaviour and random source", "why_tests_cant": "all server behaviours", "anchors": ["mozolm/grpc/client_helper.cc:RandGen"]}
{"id": "C43", "title": "k-best returns the k most likely", "statement": "OneKbestSample lists the k most probable continuations. (Undefined behaviour when k exceeds the number of scores.)", "quantifier": "every k and every response", "why_tests_cant": "all inputs", "anchors": ["mozolm/grpc/client_helper.cc:OneKbestSample"]}
{"id": "C44", "title": "Top hypotheses are the most likely ones, sorted", "statement": "GetTopHypotheses returns, in non-increasing probability, the top_n most likely (symbol, probability) pairs for 0 < top_n < number of entries, and all of them for top_n <= 0; it refuses every top_n at or above the number of entries, and every response that is empty or whose lists differ in length. (As documented it is false: top_n = 0 should return none, top_n = number of entries all.)", "quantifier": "every response and top_n", "why_tests_cant": "all inputs", "anchors": ["mozolm/models/language_model.cc:GetTopHypotheses"]}
{"id": "C45", "title": "Softmax renormalisation", "statement": "SoftmaxRenormalize makes the probabilities sum to one and preserves all ratios; when every cost is infinite the result is NaN.", "quantifier": "every non-empty vector of costs", "why_tests_cant": "all real vectors", "anchors": ["mozolm/models/language_model.cc:SoftmaxRenormalize"]}
{"id": "C46", "title": "Relabelling keeps symbols distinct", "statement": "RelabelWithCodepoints succeeds exactly for automata with a symbol table, the same input and output label on every arc, strictly increasing labels at each state, single-character symbols (other than the kept ones) and at most 27 kept symbols in conflict; then the result is again label-sorted with equal input and output labels. After RelabelWithCodepoints each symbol that is not kept has its code point as label, and distinct symbols have distinct labels provided none of the reserved control-character labels is in use; every arc is kept with its label mapped the same way. (Without the proviso distinctness is false: a kept symbol moved on collision can receive a label already in use.)", "quantifier": "every symbol table and keep list", "why_tests_cant": "all tables", "anchors": ["mozolm/utils/ngram_fst_relabel.cc:GetCodepointMapping"]}
{"id": "C47", "title": "TLS is used when requested", "statement": "If TLS is requested and a TLS section is configured both sides use TLS with the configured keys and certificates, and the server demands a client certificate exactly when client_verify is set; insecure credentials are used exactly when TLS was not requested or has no section, and both sides decide alike; files named by flags override the configured certificates and keys, which otherwise are kept. (The stronger claim, insecure only if TLS was not requested, is false: TLS requested without a section silently falls back to insecure.)", "quantifier": "every configuration", "why_tests_cant": "all configurations", "anchors": ["mozolm/grpc/server_helper.cc:BuildServerCredentials", "mozolm/grpc/client_helper.cc:BuildChannelCredentials"]}
{"id": "C48", "title": "A configured client timeout is honoured", "statement": "InitConfigDefaults keeps a positive configured timeout and otherwise sets five seconds. (The command line client does not honour a configured timeout: the flag's default overrides it, and its timeout depends on the flag alone.)", "quantifier": "every configuration and flag value", "why_tests_cant": "all configurations", "anchors": ["mozolm/grpc/client_async_main.cc:InitConfigFromFlags", "mozolm/grpc/client_helper.cc:InitConfigDefaults"]}
{"id": "C49", "title": "A refused update changes nothing", "statement": "If UpdateLMScores with non-negative symbols answers INVALID_ARGUMENT no counts have changed, for components that accept updates at their own states and histories in which no state was recycled while being extended; such requests at an existing state are never refused; and every request at an id that can be no state (negative or at or above the maximum table size, within 32 bits) is refused without changing counts. (For other requests it is false: a trailing negative symbol is refused after the counts were updated.)", "quantifier": "every 64-bit id, symbols, count, component and history of requests", "why_tests_cant": "all requests", "anchors": ["mozolm/grpc/server_async_impl.cc:ManageUpdateLMScores", "mozolm/models/language_model_hub.cc:UpdateLMCounts"]}
{"id": "C50", "title": "Bits per character are finite", "statement": "Each character's contribution is minus the binary logarithm of the model's probability for it mixed with a little of the uniform distribution, and is finite and positive whatever the model returns in [0,1], unseen characters included, and never more than that of an unseen one; the average over a file with at least one line is finite and positive. (For an empty file it is 0/0.)", "quantifier": "every response, symbol and corpus", "why_tests_cant": "all inputs", "anchors": ["mozolm/grpc/client_helper.cc:CalculateBits", "mozolm/grpc/client_helper.cc:CalcBitsPerCharacter"]}
{"id": "C51", "title": "Counts go to the context of the requested state", "statement": "An accepted UpdateLMScores makes every mixed component model count the symbols exactly once, at the model state the requested hub state denoted when the request arrived, if the table has room for the symbols or the state is more creations away from being overwritten than there are symbols, and always for the start state; in every case it counts exactly once, at the model state the requested slot holds when counting starts. (At the state denoted on arrival it is false when creating the continuation states recycles the requested state.)", "quantifier": "every reachable hub, state, symbols and count", "why_tests_cant": "all recycling situations", "anchors": ["mozolm/models/language_model_hub.cc:UpdateLMCounts", "mozolm/grpc/server_async_impl.cc:ManageUpdateLMScores"]}
{"id": "C52", "title": "GetLMScores and GetNextState agree", "statement": "GetLMScores(context, state) returns the scores of exactly the state GetNextState(context, state) returns: asking at the returned state with an empty context gives the same reply and leaves the same hub; and asking GetNextState again returns the same state and changes nothing while the table has room for the context or the requested state is more creations away from being overwritten than the context has symbols. (Beyond that, repeating is not idempotent.)", "quantifier": "every hub, context and state", "why_tests_cant": "all histories", "anchors": ["mozolm/grpc/server_async_impl.cc:HandleRequest"]}
{"id": "C53", "title": "Model factory builds what was configured", "statement": "MakeModelHub yields one component per configured model in order (one default bigram model when none is configured) and keeps the configured number of states and Bayesian history length, fails if and only if some model or the hub fails to initialise, and only the first model is used when no mixture is requested.", "quantifier": "every configuration and reader outcome", "why_tests_cant": "all configurations", "anchors": ["mozolm/models/model_factory.cc:MakeModelHub", "mozolm/models/language_model_hub.cc:InitializeModels"]}
{"id": "C54", "title": "Hub states track every component", "statement": "After an accepted update at an existing state, if the table has room for the symbols or the state is more creations away from being overwritten than there are symbols, and no state was recycled while being extended, the state the hub gives for the symbols just counted denotes in every component the state that component's transitions, as they are now, lead to from the requested state.", "quantifier": "every history of server requests, components, contexts", "why_tests_cant": "all histories of requests", "anchors": ["mozolm/grpc/server_async_impl.cc:HandleRequest", "mozolm/models/language_model_hub.cc:ContextState"]}
{"id": "C55", "title": "Components are only asked about their own states", "statement": "The hub calls a component only with states that component returned itself (or its start state), so a component that is safe on its own states is never called outside them.", "quantifier": "every history of server requests, every component", "why_tests_cant": "all histories, including recycling", "anchors": ["mozolm/models/language_model_hub.cc", "mozolm/grpc/server_async_impl.cc:ManageUpdateLMScores"]}
{"id": "C56", "title": "Shutdown terminates cleanly", "statement": "Once the shutdown flag is set only finitely many steps remain, bounded by the outstanding work, whatever clients, gRPC and scheduler do; and when nothing more can happen all threads (Run and every Shutdown call) have returned, every call object is deleted and nothing is pending, except for the crash of C39.", "quantifier": "every schedule, any number of Shutdown calls", "why_tests_cant": "liveness over all schedules", "anchors": ["mozolm/grpc/server_async_impl.cc:Shutdown", "mozolm/grpc/server_async_impl.cc:DriveCQ", "mozolm/grpc/server_async_impl.cc:DecrementRpcPending"]}
{"id": "C57", "title": "Random generation reports exactly what it generates", "statement": "RandGen sends the server one update with count 1 per generated symbol, in order, at the state the server last returned, and no other update; each symbol was offered in the server's last scores.", "quantifier": "every server behaviour and random source", "why_tests_cant": "all server behaviours", "anchors": ["mozolm/grpc/client_helper.cc:RandGen", "mozolm/grpc/client_async_impl.cc:UpdateCountGetDestStateScore"]}
{"id": "C58", "title": "A server runs as configured", "statement": "Whatever sequence of Init, Run and Shutdown is called on ServerHelper, an active server has the models, address, credentials and pool size of one configuration passed to Init; Init on an active helper and Run without a server are refused; RunServer serves only if the models were made and the address could be bound; the server binary takes its configuration from the file named by its flag, or else from the inline one, overrides the pool size by a positive flag, fills in the default address, always waits for clients, and refuses to start exactly when a needed file cannot be read or the configuration not parsed. (That Run is refused after a failed Init is false: after a bind failure the helper counts as active.)", "quantifier": "every sequence of operations, configuration and environment", "why_tests_cant": "all operation sequences and failures", "anchors": ["mozolm/grpc/server_helper.cc:Init", "mozolm/grpc/server_helper.cc:Run", "mozolm/grpc/server_helper.cc:Shutdown", "mozolm/grpc/server_helper.cc:RunServer", "mozolm/grpc/server_async_main.cc:InitConfigFromFlags"]}
{"id": "C59", "title": "Start state of the character n-gram model", "statement": "The character n-gram model's start state (used by ContextState and the hub) is state 0 whatever the automaton, hence the automaton's start state exactly when that is 0. (The expected claim, that it is the automaton's start state, is false: unlike the word and PPM models its Read does not set it.)", "quantifier": "every automaton", "why_tests_cant": "all automata", "anchors": ["mozolm/models/language_model.h:start_state", "mozolm/models/ngram_fst_model.cc:Read"]}
{"id": "C60", "title": "Reading an n-gram model", "statement": "Read of an n-gram model succeeds exactly when a model file is named and readable, a symbol table comes with it or from a readable vocabulary file, and the automaton passes the canonical and normalised checks; the model then consists of exactly that automaton and table, and its unigram state is what the start state backs off to (the start state itself if it does not back off).", "quantifier": "every storage configuration and file outcome", "why_tests_cant": "all combinations of configuration and files", "anchors": ["mozolm/models/ngram_fst_model.cc:Read", "mozolm/models/ngram_fst_model.cc:CheckModel"]}
{"id": "C61", "title": "A fresh PPM model is uniform over the vocabulary", "statement": "A PPM model read from a vocabulary alone knows exactly the vocabulary's characters, each once, and before any update gives each of them and end of string the same probability 1/(n+1) after every context.", "quantifier": "every vocabulary file with at least one character, every option", "why_tests_cant": "all vocabularies", "anchors": ["mozolm/models/ppm_as_fst_model.cc:Read", "mozolm/models/ppm_as_fst_model.cc:AddExtraCharacters", "mozolm/models/ppm_as_fst_model.cc:MakeEmpty"]}
{"id": "C62", "title": "Adaptation raises the probability of what was observed", "statement": "UpdateLMCounts of one known symbol with a positive count at a state of a PPM model makes SymLMScore of that symbol at that state strictly smaller.", "quantifier": "every well-formed model, history, state, known symbol and positive count", "why_tests_cant": "all histories and counts; depends on the blending along the whole backoff chain", "anchors": ["mozolm/models/ppm_as_fst_model.cc:UpdateLMCounts", "mozolm/models/ppm_as_fst_model.cc:UpdateModel", "mozolm/models/ppm_as_fst_model.cc:SymLMScore"]}
{"id": "C63", "title": "The word model's states follow the typed text", "statement": "Typing characters through NextState keeps track of the text: a letter that continues some vocabulary word leads to the state of the longer prefix, one that continues none leads to the out-of-vocabulary state, which lasts until the next space; a space after a complete word leads to the n-gram state of that word (longest match), a space after anything else to the unigram state; a first character that starts no word leads to the unigram state. NextState never faults for a nonnegative state.", "quantifier": "every model and vocabulary (words without spaces, <unk> absent or last), every history of calls, every text", "why_tests_cant": "all texts and all interleavings of calls on the shared table of prefix states", "anchors": ["mozolm/models/ngram_word_fst_model.cc:NextState", "mozolm/models/ngram_word_fst_model.cc:NextCompleteState", "mozolm/models/ngram_word_fst_model.cc:NextFirstLetterState"]}
{"id": "C64", "title": "A sound word model loads", "statement": "When the n-gram reader accepts the files and the automaton is closed with acyclic backoff, its labels are in the symbol table and the vocabulary is dense with nonempty words, Read of the word model succeeds without fault whatever cache size is configured, keeps exactly that automaton and table, starts at the automaton's start state, and uses the configured cache size if it exceeds the model order, else 2000.", "quantifier": "every automaton, vocabulary and configured cache size", "why_tests_cant": "all automata and vocabularies", "anchors": ["mozolm/models/ngram_word_fst_model.cc:Read", "mozolm/models/ngram_word_fst_model.cc:EstablishLexicographicOrdering", "mozolm/models/ngram_word_fst_model.cc:EnsureCacheIndex"]}
{"id": "C65", "title": "The absent state -1 in the word model", "statement": "ExtractLMScores and SymLMScore of the word model take the state -1 for the unigram state. NextState does not: a first letter typed from -1 leads to a new state, and ExtractLMScores of it is undefined behaviour. (The expected claim, that -1 means the unigram state in all functions as in the character model, is false.)", "quantifier": "every model and vocabulary, every history of calls, every first letter", "why_tests_cant": "all models and histories", "anchors": ["mozolm/models/ngram_fst_model.cc:CheckCurrentState", "mozolm/models/ngram_word_fst_model.cc:NextState", "mozolm/models/ngram_word_fst_model.cc:ExtractLMScores", "mozolm/models/ngram_word_fst_model.cc:EnsureCacheIndex"]}
{"id": "C66", "title": "The word model's cache evicts the least recently used weights", "statement": "After any history the entries of the weight cache carry distinct times of last use; scoring a state leaves the weights of its n-gram state as those used last, and when the cache is full the entry replaced is the one used longest ago, and only that one.", "quantifier": "every model, cache size and history of calls", "why_tests_cant": "all histories, including the recursive filling along the backoff chain", "anchors": ["mozolm/models/ngram_word_fst_model.cc:FindOldestLastAccessedCache", "mozolm/models/ngram_word_fst_model.cc:GetNewCacheIndex", "mozolm/models/ngram_word_fst_model.cc:ExtractLMScores"]}
{"id": "C67", "title": "Training a PPM model from text gives exactly the prescribed counts", "statement": "Read of a PPM model from a text file with at least one character and a maximal order of at least two succeeds, with or without a vocabulary file: its symbols are the characters of the text and of the vocabulary; its states are exactly the contexts (up to order minus one preceding characters, with the beginning of the line) that occur in the text; a context that is not part of a longer one has the actual counts of what follows it, any other context counts for each symbol the number of different longer contexts after which it was seen, and the empty context one more for every symbol of text and vocabulary and for the end of line; backoff, successor and stored totals agree with this. A text with the reserved symbol, or a maximal order of one, is refused with an error; a text file without lines gives an error with a vocabulary and undefined behaviour without one.", "quantifier": "every text, vocabulary, maximal order and every automaton the n-gram counter may return under its contract (numbering of states, order of arcs)", "why_tests_cant": "all texts, orders and vocabularies; all state numberings of the external counter", "anchors": ["mozolm/models/ppm_as_fst_model.cc:TrainFromText", "mozolm/models/ppm_as_fst_model.cc:CalculateUpdateExclusions", "mozolm/models/ppm_as_fst_model.cc:AddPriorCounts", "mozolm/models/ppm_as_fst_model.cc:Read", "mozolm/models/ppm_as_fst_model.cc:GetSymsVector"]}
{"id": "C68", "title": "A trained PPM model gives the documented probabilities for the counts of the text", "statement": "In a model trained from text, static or not updated yet, ExtractLMScores at the state of each context of the text reports for end of string and each character the probability of the documented blending formula evaluated on the counts of the text; the probabilities are positive and sum to one.", "quantifier": "every text, vocabulary, order, parameters, context of the text and history of queries (any history for a static model)", "why_tests_cant": "all texts, contexts and parameters", "anchors": ["mozolm/models/ppm_as_fst_model.cc:ExtractLMScores", "mozolm/models/ppm_as_fst_model.h", "mozolm/models/ppm_as_fst_model.cc:TrainFromText"]}
{"id": "C69", "title": "A trained PPM model's state is the longest known context of what was typed", "statement": "In a model trained from text, static or not updated yet, NextState leads from the state of a context to the state of the longest context of the training text that the old context followed by the new character ends in; hence ContextState of any text from the start state leads to the longest context of the training text that the typed text (with the beginning of the line) ends in, and a character the model does not know leads to the empty context.", "quantifier": "every training text, order, typed text and history of queries", "why_tests_cant": "all texts and typed sequences", "anchors": ["mozolm/models/ppm_as_fst_model.cc:NextState", "mozolm/models/ppm_as_fst_model.cc:GetDestinationState", "mozolm/models/language_model.cc:ContextState"]}
{"id": "C70", "title": "The hub answers exactly when its components do", "statement": "ExtractLMScores of a hub mixing two or more models returns false at an existing state exactly if some mixed component model does at the model state the hub state holds for it; the normalisation it reports is the weighted sum of the components' normalisations. A hub without mixing (mixture NONE or a single model) returns exactly its first component's answer.", "quantifier": "every reachable hub, state, set of component models and their answers", "why_tests_cant": "all component behaviours and hub histories", "anchors": ["mozolm/models/language_model_hub.cc:ExtractLMScores", "mozolm/models/language_model_hub.cc:MixResults"]}
{"id": "C71", "title": "Requests are handled one at a time", "statement": "At every moment of every history of the server, including shutdown at any point and any number of concurrent calls of Shutdown, at most one request is between being taken up and being answered, and it is handled by the thread that runs the server; so the hub, which has no lock, is never accessed by two requests at once.", "quantifier": "every interleaving of the serving thread, client requests and any number of Shutdown calls", "why_tests_cant": "all schedules", "anchors": ["mozolm/grpc/server_async_impl.cc:DriveCQ", "mozolm/grpc/server_async_impl.cc:ProcessRequests", "mozolm/grpc/server_async_impl.cc:Shutdown", "mozolm/models/language_model_hub.h"]}
{"id": "C72", "title": "The service over the real models never fails", "statement": "A hub whose components are any mix of bigram, PPM, character n-gram and word n-gram models as their Read leaves them: whatever calls or requests are made, in any order and with any arguments (for updates with Bayesian history: at existing states, with symbols that are not negative), no component is made to do something undefined, to throw or to run for ever, every call completes, the scores at every existing state and for every non-empty context are answered, and updates at existing states with non-negative symbols are accepted (unless a state took its own place in a full state buffer). The one exception is the int64 counts of a bigram model, and these cannot overflow before the largest initial count plus the observations reported by all updates exceeds 2^63 - 1.", "quantifier": "every mix of loaded component models, configuration, history of hub calls or server requests", "why_tests_cant": "all histories and all model files; the components' preconditions must hold at every state id the hub ever hands them", "anchors": ["mozolm/models/language_model_hub.cc", "mozolm/models/simple_bigram_char_model.cc", "mozolm/models/ppm_as_fst_model.cc", "mozolm/models/ngram_char_fst_model.cc", "mozolm/models/ngram_word_fst_model.cc", "mozolm/models/model_factory.cc", "mozolm/grpc/server_async_impl.cc"]}
{"id": "C73", "title": "Without learning, earlier requests do not matter", "statement": "Take a server over any mix of loaded models. As long as nothing is learnt - no update request has a positive count, or all models are n-gram models or static PPM models - the reply to GetLMScores for a text, sent with a state id of at most zero, is the reply a freshly started server gives: it depends on the text only, not on what other clients have asked before, in what order, or which caches, implicit states and hub states exist by then. This also holds with Bayesian history mixing. It holds as long as the hub's state buffer has not filled up (1 + symbols sent so far at most max_hub_states), and in any longer history in which no state was recycled to make room for its own continuation.", "quantifier": "every mix of loaded component models, configuration, two histories of requests of any length, every text", "why_tests_cant": "quantifies over pairs of histories, over lazily created word-model states and over all cache contents", "anchors": ["mozolm/grpc/server_async_impl.cc: HandleRequest", "mozolm/models/language_model_hub.cc: ContextState, NextState, ExtractLMScores", "mozolm/models/ngram_word_fst_model.cc: NextState, ExtractLMScores", "mozolm/models/ppm_as_fst_model.cc: EnsureCacheAtState, NextState"]}
{"id": "C74", "title": "The reply is made of what the models say on their own", "statement": "Take a server over any mix of loaded models in whose history nothing was learnt (see C73). The reply to GetLMScores for a text sent with a state id of at most zero is: without mixing, exactly the answer the first model gives when it alone is asked to follow the text from its start state; with interpolation, each symbol any model lists, once, in byte order, with the weighted sum of the probabilities the models give it on their own, over the total. The weight of a model is its configured one times the probabilities it gave - on its own - to the last bayesian_history_length characters of the text, normalized over the models. So a PPM model trained from a text file and served alone answers with the documented PPM formula over the counts of the text file, for the longest context in it that the typed text ends in.", "quantifier": "every mix of loaded component models, configuration, history of requests, text", "why_tests_cant": "quantifies over all histories, models and texts; an end-to-end statement about hub, server and component together", "anchors": ["mozolm/grpc/server_async_impl.cc: HandleRequest", "mozolm/models/language_model_hub.cc: ContextState, NextState, ExtractLMScores, GetMixtureWeights", "mozolm/models/ppm_as_fst_model.cc", "mozolm/models/simple_bigram_char_model.cc"]}
{"id": "C75", "title": "Counting a text brings the adaptive weights along it up to date", "statement": "With adaptive (Bayesian) mixture weights, UpdateLMCounts for a text at an existing state recomputes the history of every known successor of every state along the text - the text's own and those branching off it by one character: it becomes the history of the state it follows plus the cost each model gives the character at the time of the update (before the new counts take effect), cut to the configured length; the history of the requested state itself stays. So after an update at the start state, the weights in force at each state along the text are the configured ones times the probabilities the models give, as they are at the update, to the last characters typed, normalized over the models - however stale the histories were.", "quantifier": "every mix of models, configuration, history of calls, text, count", "why_tests_cant": "quantifies over all histories of learning and querying, texts and tables of branching states; the existing tests look at one update", "anchors": ["mozolm/models/language_model_hub.cc: UpdateLMCounts, UpdateBayesianHistory, GetBayesianMixtureWeights, VerifyOrCorrectModelStates"]}
{"id": "C76", "title": "A PPM model that learns is a memory of contexts", "statement": "An adaptive PPM model behaves as a table, keyed by contexts (the last characters typed, shorter than the maximal order), of how often each symbol was counted after each context. Teaching a text after a text counts each character, as often as asked, in the longest known context of what precedes it and in its shorter contexts down to the longest one where the character was counted before, and from then on the contexts with the character added are known; a code point that is not in the vocabulary starts a new string. Asking for scores changes nothing in the table. After any history of such calls, the answer for any text is, for every symbol, the documented PPM formula over the table for the longest known context that the text ends in; the probabilities are positive and sum to one, and the score of one symbol agrees with them. A model trained from text starts with the contexts of the text and the counts of update exclusion, a model read from a vocabulary with the beginning of a string and a count of one for every symbol. So two histories with the same teaching calls give the same answers, whatever was asked in between.", "quantifier": "every training text or vocabulary, options, history of calls (any texts, counts), text asked about", "why_tests_cant": "quantifies over all histories of learning and asking; the states of the model are created, found and reused in an automaton and a bounded cache, whose agreement with the table is an invariant of every run", "anchors": ["mozolm/models/ppm_as_fst_model.cc: UpdateModel, UpdateHighestFoundState, UpdateNotFoundState, AddNewState, NeedsNewState, UpdateLMCounts, GetNegLogProbs, NextState, ExtractLMScores, SymLMScore, Read", "mozolm/models/ppm_as_fst_model.h:35-43", "mozolm/models/language_model.cc: ContextState"]}
{"id": "C77", "title": "A server with a PPM model that learns is a memory of contexts", "statement": "Of a server in front of any models, among them an adaptive PPM model with a mixture weight: after any history of requests, that model holds the table of C76, made from the one it started with by learning, for each accepted update request, the characters of the request after some known context (after the beginning of a string if the state is 0), and by nothing else. If all updates are at state 0 it answers as a model on its own that was taught the same strings. With the PPM model alone, the reply to a request for scores after a text is, symbol by symbol, the documented formula over that table for a known context that the text ends with; teaching at the state the server gave for a text is learning after such a context; the reply to an update, and the replies to asking along the text taught, are those of the longest contexts known then (as long as no state takes its own place in the state buffer and there is room for the text).", "quantifier": "every model read or trained, configuration, history of requests, text, state id, count", "why_tests_cant": "quantifies over all histories; the states of the table, the states of the model they refer to and the contexts these stand for change independently, and cached states refer to contexts that were longest when they were made", "anchors": ["mozolm/grpc/server_async_impl.cc: HandleRequest, ManageUpdateLMScores", "mozolm/models/language_model_hub.cc: NextState, ContextState, UpdateLMCounts, VerifyOrCorrectModelStates, ExtractLMScores", "mozolm/models/ppm_as_fst_model.cc"]}
{"id": "C78", "title": "Teaching a text character by character", "statement": "A client that sends an update request for each character of a text, asking for the next state after each, and then one for the end of the string, as the Java example does: the session completes; if no state takes its own place in the state buffer, in particular if there is room for it, no request is refused, each reply has the probabilities of the longest context of the text so far known then, and afterwards a PPM model alone behind the server has learnt each character after the text before it. For a text of known characters that is what it learns from one update request at state 0 with the whole text and the end of the string.", "quantifier": "every model, configuration, earlier history of requests, text, count", "why_tests_cant": "all texts after all histories; each step relies on the state ids and contexts left by the previous ones", "anchors": ["mozolm/java/com/google/mozolm/examples/VocabOnlyModelClientExample.java: updateModel", "mozolm/grpc/server_async_impl.cc: ManageUpdateLMScores", "mozolm/models/language_model_hub.cc", "mozolm/models/ppm_as_fst_model.cc: UpdateLMCounts"]}
{"id": "C79", "title": "State ids are a directory of texts", "statement": "While the state table has room for the texts visited, state ids are the places of the texts in the order of their first visit, the empty text first: the reply to GetNextState for a text at a state id is the place of the text of that id followed by the text (an id that no state has, or a negative one, counts as the empty text); in particular two requests, with any others between them, reply the same id exactly if the texts are the same. (Without room it is false: ids are reused.)", "quantifier": "every set of components, configuration, history of requests of all three kinds, text and state id", "why_tests_cant": "all histories; updates rewrite states in between", "anchors": ["mozolm/models/language_model_hub.cc: NextState, ContextState, AssignNewHubState, UpdateLMCounts", "mozolm/grpc/server_async_impl.cc: HandleRequest, ManageUpdateLMScores"]}
{"id": "C80", "title": "A server with a learning PPM component is a book of contexts", "statement": "While the state table has room for the texts visited, the whole behaviour of a server in front of a PPM component that learns is that of a book: a table of context counts and, for each text visited in order of first visit, the context the text was last found in. A request that visits a new text gives it the longest context known that the context of the text one character shorter, with that character, ends with; an update counts its characters at the context of its state's text and gives the texts along it the longest contexts known afterwards; the contexts of other texts stay. After any history the component answers as the table of the book, a score or update request is refused exactly where the book says so, and otherwise its reply has exactly the probabilities of the context the book says, in the table after the request. The number of a page is the state id of its text. (That asking leaves no trace is false of the server: a text that was asked for before it was taught keeps its old context.)", "quantifier": "every component state a vocabulary or training text gives, configuration, history of requests of all three kinds with non-negative symbols, state id (valid or not), text and count", "why_tests_cant": "the replies depend on the whole history through cached model states; all histories, ids and texts", "anchors": ["mozolm/models/language_model_hub.cc: NextState, ContextState, UpdateLMCounts, VerifyOrCorrectModelStates", "mozolm/models/ppm_as_fst_model.cc: NextState, UpdateLMCounts, ExtractLMScores", "mozolm/grpc/server_async_impl.cc: HandleRequest, ManageUpdateLMScores"]}
{"id": "C81", "title": "Bits per character of a file, from the client through the server to a learning PPM model", "statement": "When a client measures the bits per character of a file with a server in front of a PPM component that learns, after any history of requests and with room in the state table, no request is refused and the figures reported are exactly these: the number of characters counting one end for each line, the number of characters not in the symbol table, and the average of the bits it costs to code the file with the table of context counts that the history made. A character costs minus the binary logarithm of its probability (zero if it is not known), mixed with a little of the uniform distribution, after the longest known context of its line; then it is learnt once before the next is coded; the end of a line is coded but not learnt. Afterwards the server has learnt the lines of the file, each once from a beginning of string. Measuring always completes, even without room.", "quantifier": "every component state a vocabulary or training text gives, configuration, earlier history of requests, file of lines of encodable characters and sequence of random numbers", "why_tests_cant": "unbounded histories and files; the figure depends on every count learnt before, through client, handlers, hub cache and model", "anchors": ["mozolm/grpc/client_helper.cc: CalcBitsPerCharacter, UpdateCountGetDestStateScore, GetLMScores", "mozolm/grpc/server_async_impl.cc: HandleRequest, ManageUpdateLMScores", "mozolm/models/language_model_hub.cc: ContextState, UpdateLMCounts", "mozolm/models/ppm_as_fst_model.cc: UpdateLMCounts, ExtractLMScores"]}
{"id": "C82", "title": "Generated texts have exactly the probability the learnt counts give them", "statement": "When a client generates a random text with a server in front of a PPM component that learns, after any history of requests and with room in the state table, then with independent uniform random numbers the generated text begins with given characters of the symbol table with exactly the product of the probabilities that the table of context counts made by the history gives them one after the other, each being learnt once before the next is drawn, starting from a known context that the given text ends with (the beginning of string if it is empty); and the generation stops exactly there with the probability that the end of string has then. Whatever the random numbers are, no request is refused, the text consists of characters of the table, the remark about the length limit is appended exactly when the generated characters fill 128 bytes, and afterwards the server has learnt exactly the generated characters.", "quantifier": "every component state a vocabulary or training text gives, configuration, earlier history of requests, context string and sequence of random numbers; probabilities over all sequences of independent uniform numbers", "why_tests_cant": "a statement about probabilities over an uncountable space and all histories", "anchors": ["mozolm/grpc/client_helper.cc: RandGen, GetRandomPosition", "mozolm/grpc/client_async_impl.cc: GetNextState, UpdateCountGetDestStateScore", "mozolm/grpc/server_async_impl.cc: HandleRequest, ManageUpdateLMScores", "mozolm/models/ppm_as_fst_model.cc: UpdateLMCounts, ExtractLMScores"]}
{"id": "C83", "title": "The k best continuations printed are the k most likely of the learnt counts", "statement": "When a client asks a server in front of a PPM component that learns for the k best continuations of a text, after any history of requests and with room in the state table, the request is not refused, and for k up to the number of symbols (with the end of string) exactly k different symbols are printed, most likely first, with the probabilities that the table of context counts made by the history gives them after a known context that the text ends with (the beginning of string if it is empty), and no symbol left out is more likely than one printed. Nothing is learnt by asking. (For larger k it is false that all are printed: the client reads beyond the end of the list.)", "quantifier": "every component state a vocabulary or training text gives, configuration, earlier history of requests, context string and k", "why_tests_cant": "all histories, texts and tables", "anchors": ["mozolm/grpc/client_helper.cc: OneKbestSample, GetLMScores", "mozolm/models/language_model.cc: GetTopHypotheses", "mozolm/grpc/server_async_impl.cc: HandleRequest", "mozolm/models/ppm_as_fst_model.cc: ExtractLMScores"]}
{"id": "C84", "title": "A server with a bigram component is a table of pair counts", "statement": "In front of any components, one of them a bigram model with a mixture weight: after any history of requests, the counts of that component are those read from its files plus, for every accepted update request, count times the pairs of adjacent characters of the text sent (a character outside the vocabulary is skipped and what follows it counts as after the beginning), the first one paired with the last character of the state the request names (the beginning for state 0), provided the text fits the state table; a count that is not positive adds nothing, and GetNextState and GetLMScores requests add nothing. While all counts are in the range of int64, and if the component is the only one mixed, the reply to GetLMScores lists the whole vocabulary with each character's share of the counts after the last character of the text (the first vocabulary character stands in for one outside it and for the beginning), the reply to UpdateLMScores is made the same way of the counts including the text sent, and the state returned by GetNextState is one whose last character is that of the text. The shares are positive and sum to one.", "quantifier": "every vocabulary and count file accepted, other components, configuration, history of requests, context, text, state id and count", "why_tests_cant": "all files, histories and texts, with states being recycled", "anchors": ["mozolm/models/simple_bigram_char_model.cc: ExtractLMScores, UpdateLMCounts, NextState", "mozolm/models/language_model_hub.cc: NextState, ContextState, ExtractLMScores, UpdateLMCounts", "mozolm/grpc/server_async_impl.cc: HandleRequest, ManageUpdateLMScores"]}
{"id": "C85", "title": "Every schedule of the service is a serial history", "statement": "Any number of clients call the service at the same time over a network that can delay, lose or fail calls (deadline), while the server's threads and calls of Shutdown interleave in any way. Then there is an order of the requests the server has handled such that handling them one at a time in that order, from the models as loaded, gives every answer that any client got and leads to the models and states as they are; no request is in it twice and none that was not sent; a request whose answer a client got before another was sent comes before it, and one that comes before another had been sent when the other was answered. A client's call ends at most once, with one answer or with an error. A request reaches the handler of its own method. By itself the server makes a number of steps bounded by the calls and threads as they are and comes to rest; when it is at rest, and when its queue is shut down, every request that reached it has been handled.", "quantifier": "every number of clients, requests, order of sending, delivery, handling and answering, interleaving of server threads, calls of Shutdown, lost and failed calls, and set of components", "why_tests_cant": "schedules and histories are unbounded; a test sees a few of them", "anchors": ["mozolm/grpc/server_async_impl.cc: HandleRequest, ProcessGetNextState, ProcessGetLMScore, ProcessUpdateLMScores, RequestNextGetNextState, RequestNextGetLMScore, RequestNextUpdateLMScores, CleanupAfterGetNextState, CleanupAfterGetLMScore, CleanupAfterUpdateLMScores, DriveCQ, Shutdown", "mozolm/grpc/client_async_impl.cc: GetLMScore, GetNextState, UpdateCountGetDestStateScore, WaitAndCheck", "mozolm/grpc/server_helper.cc: Init, Run"]}
{"id": "C86", "title": "Acknowledged counts are counted exactly once, others at most once", "statement": "With a bigram component and clients that count whole texts (at state 0), however their calls interleave, fail or get lost: the counts of the component are those read from its files plus the pairs of the texts of some of the update requests sent, each at most once, and every request whose answer a client got. The scores a client gets for a non-empty context, with the bigram model alone, are the shares of such counts, with every request that had been acknowledged when the client asked and none that was sent after the reply. (That a call which ended with an error was not counted is false: the answer can be lost.)", "quantifier": "every number of clients, history and schedule as in C85, vocabulary and count file, text and count, while the counts stay in the range of int64", "why_tests_cant": "all interleavings, failures and histories", "anchors": ["mozolm/grpc/server_async_impl.cc: ManageUpdateLMScores, HandleRequest, ProcessGetNextState, ProcessGetLMScore, ProcessUpdateLMScores", "mozolm/grpc/client_async_impl.cc: UpdateCountGetDestStateScore, GetLMScore", "mozolm/models/simple_bigram_char_model.cc: UpdateLMCounts, ExtractLMScores", "mozolm/models/language_model_hub.cc: UpdateLMCounts, NextState"]}
{"id": "C87", "title": "Concurrent clients share one book", "statement": "For any number of clients at once there is an order of the requests that agrees with what the clients know (each call at most once, all that were answered, calls answered before others were made first, nothing before an answered call that was made after the answer) such that every answer a client got is that of one server handling the requests before it one at a time. If the texts asked and counted fit into the state table, then: the state ids that all clients get are places in one list of texts without repetitions, the id got for a text from the start or from an id got before being the place of the text so extended, whatever others do in between; and with a PPM model that learns, every answer is the one that the book of C80 gives after the requests before it in the order.", "quantifier": "every number of clients, schedule, delay, loss and failure of calls, shutdown at any time, sequence of requests with non-negative symbols that fit the table, initial memory, component set (state ids) or options and order of the PPM model (answers)", "why_tests_cant": "all interleavings and histories", "anchors": ["mozolm/grpc/server_async_impl.cc: ProcessGetNextState, ProcessGetLMScore, ProcessUpdateLMScores, HandleRequest, DriveCQ", "mozolm/grpc/client_async_impl.cc: GetNextState, GetLMScore, UpdateCountGetDestStateScore", "mozolm/models/language_model_hub.cc: ContextState, NextState, UpdateLMCounts", "mozolm/models/ppm_as_fst_model.cc: NextState, ExtractLMScores, UpdateLMCounts"]}
{"id": "C88", "title": "Rounding costs a bounded share of accuracy and nothing else", "statement": "Let every operation on costs be accurate within ε and every operation on plain numbers within the factor 1 ± δ, or raise an exception flag (the result is then NaN). Then: the mixture weights are at all times those configured, normalised, within n ε for n models; with a Bayesian history of length j and symbol scores accurate within d they are the posterior ones within 2 (n ε + j (d + ε) + ε) + n ε; each probability of a mixture is the weighted average of the components' within a factor whose logarithm is linear in ε, slack = -log(1 - δ) and the errors of the components, in particular for any mixture of bigram models after any calls; a bigram model answers with the shares of its counts within 3 slack; the probabilities of every reply with scores of the server, over components of all kinds and after any requests, are not negative and add up to one within the factor exp(± (K ε + 3 slack)) for K symbols, unless a flag was raised; and for errors up to one per cent what the totality of the service (C72) assumes of counts still holds. Without flags the bounds are unconditional.", "quantifier": "every arithmetic with such errors (in particular 53-bit arithmetic), configuration, set of components, history of calls or requests, state, context and symbol", "why_tests_cant": "a test rounds on a few numbers with one library; the bounds are about every history and every result of every operation", "anchors": ["mozolm/models/language_model_hub.cc: InitializeModels, GetMixtureWeights, ExtractLMScores", "mozolm/models/language_model.h: SoftmaxRenormalize", "mozolm/models/simple_bigram_char_model.cc: ExtractLMScores, SymLMScore", "mozolm/grpc/server_async_impl.cc: HandleRequest"]}
{"id": "C89", "title": "Saving and reopening a PPM model", "statement": "Saving a PPM model to a file, at any points of its life and however often, whether or not the file can be written, changes no answer then or later. Reading the file back succeeds and gives a model that no history of calls tells from the saved one, whatever the history before and the earlier saves, also if it is given another cache size and a vocabulary of characters it knows; read back as a static model it answers every question as the saved model does. With rounding this holds for models whose characters are in the order of their labels in the empty context (models read from a vocabulary, from a file with sorted arcs with or without characters added, from any saved file); in exact arithmetic for all.", "quantifier": "every model from a vocabulary, automaton file or text, history of calls with saves at any points, successful or not, options that differ in the cache size and in being static, vocabulary of known characters, later history", "why_tests_cant": "saving reorders the arcs of the live automaton under its caches; that nothing depends on the order is about every history before and after", "anchors": ["mozolm/models/ppm_as_fst_model.cc: WriteFst, Read, CalculateStateOrders, AddExtraCharacters, UpdateLMCounts, ExtractLMScores, SymLMScore, NextState"]}
{"id": "C90", "title": "The access counter of the PPM cache", "statement": "The counter of cache accesses of a PPM model, and all times stored in its cache, never exceed the sum of what the calls made so far can use: d = maximal order + 2 per question, 2 d + max(1, count) d (2 d + 1) per symbol of an update, 3 d + d (2 d + 1) per symbol scored; so no int overflows in any history for which that sum is below 2^31. (That it never overflows is false: asking for the scores of one state 2^31 times overflows it.)", "quantifier": "every model from a vocabulary, automaton file or text, history of calls, moment in it", "why_tests_cant": "the bound is over all histories; the overflow needs billions of calls", "anchors": ["mozolm/models/ppm_as_fst_model.h: cache_accessed_, PpmStateCache", "mozolm/models/ppm_as_fst_model.cc: EnsureCacheAtState, UpdateCacheAtState, UpdateModel, UpdateLMCounts, GetNegLogProbs"]}
{"id": "C91", "title": "Accuracy of the PPM model with rounding", "statement": "Read from the same source and given the same calls, a PPM model that computes with rounding and one that computes exactly (whose answers follow the documented formula) go through the same states, return the same results and list the same symbols; every cost differs by at most an error linear in the number of observations after a context, the number of characters and the maximum order, every probability and normalization by at most the factor exp of such an error, unless an operation raised a flag. In numbers: with binary64 arithmetic, up to 1000 characters, order up to 10, beta up to 3/4 and up to a million observations, costs and logarithms of probabilities are right within 1/50000.", "quantifier": "every arithmetic with bounded errors, every source (vocabulary; automaton file or text whose stored counts carry rounding errors, with or without a vocabulary), every history of next-state, score, update and sequence calls, every bound on observations", "why_tests_cant": "errors of every count are carried into every later answer; the bound and the lock step are about every history and every rounding", "anchors": ["mozolm/models/ppm_as_fst_model.cc: UpdateLMCounts, ExtractLMScores, SymLMScore, NextState, GetNegLogProbs, EnsureCacheAtState, UpdateCacheAtState, Read, InitParameters", "mozolm/models/language_model.cc: SoftmaxRenormalize"]}
{"id": "C92", "title": "Accuracy of the character n-gram model with rounding", "statement": "Read from the same file, a character n-gram model that computes with rounding and one that computes exactly (whose answers are those of C34 and C35) are the same automaton; at every state they go to the same next state for every character, the cost of a character differs by at most one rounding error per backoff step and one more, and, if every string may end, the scores list the same symbols with probabilities that differ by at most the factor exp of twice that plus one rounding error per symbol and one of the conversion, unless an operation raised a flag; without flags the probabilities are non-negative numbers whose sum is one within that factor. In numbers: with binary64 arithmetic, order up to 10 and up to 1000 symbols, logarithms of probabilities are right within 1/7000000000.", "quantifier": "every arithmetic with bounded errors, every automaton with costs as weights and bounded backoff, every state and character", "why_tests_cant": "the bound is about every automaton and every rounding; a test compares a few values with a tolerance", "anchors": ["mozolm/models/ngram_char_fst_model.cc: NextState, ExtractLMScores, SymLMScore, LabelCostInState, FinalCostInState", "mozolm/models/ngram_fst_model.cc: Read, GetBackoff, NextModelState", "mozolm/models/language_model.cc: SoftmaxRenormalize"]}
{"id": "C93", "title": "Accuracy of the whole service with rounding", "statement": "Two servers with the same configuration are started over the same bigram, character n-gram and PPM models and serve the same requests, one computing with rounding, the other exactly. They accept and refuse the same requests and answer with the same states and the same symbols in the same order; every probability and normalization the exact server defines is answered within a factor exp of an error that is computed from the rounding errors, those of the components (C91, C92), the number of components and of symbols, and the length of the Bayesian history, unless an operation raised a flag. In numbers: in binary64 arithmetic, with up to ten components of up to a thousand symbols and order up to ten, a Bayesian history of up to a hundred symbols and up to a million symbols taught, within the factor exp(1/100).", "quantifier": "every arithmetic with bounded errors, every list of such components and configuration with costs as weights, every history of requests within the budget, every further request, every iteration order of the hash maps", "why_tests_cant": "errors of counts, weights and histories are carried into every later answer, and a state id depends on all requests before; a test compares a few replies with a tolerance", "anchors": ["mozolm/models/language_model_hub.cc: InitializeModels, NextState, ContextState, ExtractLMScores, UpdateLMCounts, GetBayesianMixtureWeights, UpdateBayesianHistory", "mozolm/grpc/server_async_impl.cc: HandleRequest, ManageUpdateLMScores", "mozolm/models/ppm_as_fst_model.cc", "mozolm/models/ngram_char_fst_model.cc", "mozolm/models/simple_bigram_char_model.cc", "mozolm/models/language_model.cc: SoftmaxRenormalize"]}
{"id": "C94", "title": "The access counter of the word model's cache", "statement": "The counter of cache accesses of a word model, and all times stored in its cache, never exceed 2 d + 1 for loading plus 2 d + 2 for every question (ExtractLMScores, SymLMScore) asked so far, d being the length of the longest chain of backoff transitions, whatever is asked and typed; so no int overflows in any history of N questions with (2 d + 2)(N + 1) at most 2^31. (That it never overflows is false: asking for the scores of the start state 2^31 times overflows it in every loaded model.)", "quantifier": "every loaded word model, cache size, history of calls, moment in it", "why_tests_cant": "the bound is over all histories and cache states; the overflow needs billions of calls", "anchors": ["mozolm/models/ngram_word_fst_model.h: cache_accessed_, NGramStateCache", "mozolm/models/ngram_word_fst_model.cc: FillWeightVector, EnsureCacheIndex, GetNewCacheIndex, GetRangeCost, ExtractLMScores, SymLMScore"]}
{"id": "C95", "title": "The states of a word model are bounded", "statement": "Whatever is typed, in whatever order and however long, a word model never has more states than N + 1 + N L V, with N the states of its automaton, L the length in characters of the longest symbol and V the size of the symbol table, and every state id that NextState gives is below that: its memory is bounded and ids are never out of the range of int for such models.", "quantifier": "every loaded word model, history of calls", "why_tests_cant": "every typed character may make a new state; the bound is over all texts", "anchors": ["mozolm/models/ngram_word_fst_model.cc: NGramImplicitStates::GetState, AddNewState, FindExistingState, NextState"]}
{"id": "C96", "title": "Bits per character of a file, from the client through the server to a bigram model", "statement": "A client asks a server whose first component is a bigram model, and which mixes it alone, for the bits per character of a file. What is reported is what coding the file with the table of pairs costs: each character with its share among what was counted after the character before it, then counting it there, each line from the beginning of a text; a character outside the vocabulary is reported as unknown, costs the fixed amount of an unknown one, and is not counted. The server afterwards answers by the table so grown. The end of a line is asked for as the empty string: it is reported as unknown on every line unless a vocabulary character is written as the empty string. (That every line's end is coded with a probability of its own is false for such vocabularies.)", "quantifier": "every bigram model beside any loaded models, history of requests, file and random numbers, with room in the state table and counts within int64", "why_tests_cant": "the numbers depend on every earlier request and on every earlier character of the file", "anchors": ["mozolm/grpc/client_helper.cc: ClientHelper::CalcBitsPerCharacter", "mozolm/grpc/server_async_impl.cc: HandleRequest, ManageUpdateLMScores", "mozolm/models/language_model_hub.cc: UpdateLMCounts, ExtractLMScores", "mozolm/models/simple_bigram_char_model.cc: ExtractLMScores, UpdateLMCounts"]}
{"id": "C97", "title": "Generated texts follow the server's replies (any server)", "statement": "A client generates text with any server, whatever models are behind it and whatever was requested before. If the replies along given symbols are distributions over symbols that do not begin one another, then with independent uniform random numbers the text generated begins with these symbols exactly with the product of the probabilities in the replies, each being the reply to the request that counted the symbol before; and it is exactly this text with the probability of the empty symbol in the last reply in addition (never, if it is not there). The k most likely continuations printed are those of the server's reply; for k beyond the number of symbols the client reads out of bounds.", "quantifier": "every server state, models, starting text, symbols of up to 128 bytes, random numbers", "why_tests_cant": "an exact probability over all sequences of random numbers, for every server", "anchors": ["mozolm/grpc/client_helper.cc: ClientHelper::RandGen, OneKbestSample, GetRandomPosition, UpdateCountGetDestStateScore", "mozolm/grpc/client_async_impl.cc: GetLMScore, GetNextState, UpdateCountGetDestStateScore", "mozolm/grpc/server_async_impl.cc: HandleRequest"]}
{"id": "C98", "title": "Generation and k-best with a bigram model", "statement": "With a server whose first component is a bigram model, mixed alone, after any history of requests: the generated text begins with given characters of the vocabulary exactly with the product of their shares in the table of pairs while they are counted one after the other, from the last character of the given text (the beginning of a text, if there is none); it is exactly that text with the share of the character written as nothing in addition, which is 0 when no vocabulary character is written as nothing: then generation goes on to the length limit. The k most likely continuations printed are the k characters with the largest shares after the last character of the given text, and nothing is counted.", "quantifier": "every bigram model beside any loaded models, history of requests, starting text, characters, random numbers, with room in the state table and counts within int64", "why_tests_cant": "an exact probability over all random numbers and histories", "anchors": ["mozolm/grpc/client_helper.cc: ClientHelper::RandGen, OneKbestSample", "mozolm/models/simple_bigram_char_model.cc: ExtractLMScores, UpdateLMCounts", "mozolm/models/language_model_hub.cc"]}
{"id": "C99", "title": "Without learning, a state continues its text", "statement": "A server whose models do not learn, or that got no update requests, is asked for the continuations of a text at a state handed out earlier, after any requests that leave room in the state table. The reply, be it to a query or to an update request, is exactly that of a freshly started server to the text of that state followed by the text asked about: no earlier or interleaved request changes it, and asking in pieces is the same as asking at once.", "quantifier": "every list of loaded models that do not learn, mixture, history of requests, state id and text, with room in the state table", "why_tests_cant": "a claim about all interleavings of all requests of all clients", "anchors": ["mozolm/grpc/server_async_impl.cc: HandleRequest", "mozolm/models/language_model_hub.cc: LanguageModelHub::NextState, ContextState, UpdateLMCounts, ExtractLMScores", "mozolm/models/ngram_char_fst_model.cc", "mozolm/models/ngram_word_fst_model.cc"]}
{"id": "C100", "title": "Generation and k-best with models that do not learn", "statement": "A client generates text, or prints the k most likely continuations, with a server whose models do not learn, after any requests that leave room in the state table. With independent uniform random numbers the generated text begins with given symbols exactly with the product of their probabilities in the replies of a freshly started server to the whole text before each of them, and is exactly this text with the probability of the end of the text in addition; the k continuations are those most probable in the fresh server's reply to the given text.", "quantifier": "every list of loaded models that do not learn, mixture, history of requests, starting text, symbols, random numbers, with room in the state table", "why_tests_cant": "an exact probability over all random numbers and all histories", "anchors": ["mozolm/grpc/client_helper.cc: ClientHelper::RandGen, OneKbestSample", "mozolm/grpc/server_async_impl.cc: HandleRequest", "mozolm/models/language_model_hub.cc"]}
{"id": "C101", "title": "Generation and k-best with a character n-gram model", "statement": "A client generates text, or prints the k most likely continuations, with a server whose first model is a character n-gram model, not mixed with the others, which do not learn either; after any requests that leave room in the state table. The generated text begins with given symbols of the model's table exactly with the product of their shares: a symbol's share at a state is the product of the backoff weights up to the first state with an arc for it and of the arc's weight, divided by the sum of the same over the whole table and the end of the text; the next state is where that arc leads (characters that are not in the table lead as in C36). The text is exactly this one with the share of the end of the text in addition (backoff weights up to the first final state, and the final weight). The k continuations printed are the symbols with the largest shares at the state of the given text.", "quantifier": "every n-gram automaton without circular backoff beside any models that do not learn, history of requests, starting text, symbols, random numbers, with room in the state table", "why_tests_cant": "an exact probability over all random numbers, automata and histories", "anchors": ["mozolm/grpc/client_helper.cc: ClientHelper::RandGen, OneKbestSample", "mozolm/models/ngram_char_fst_model.cc: NextState, ExtractLMScores, LabelCostInState, FinalCostInState", "mozolm/models/ngram_fst_model.cc: NextModelState, GetBackoff", "mozolm/models/language_model_hub.cc"]}
{"id": "C102", "title": "Generation and k-best with a word n-gram model", "statement": "A client generates text, or prints the k most likely continuations, with a server whose first model is a word n-gram model, not mixed with the others, which do not learn either; after any requests that leave room in the state table. Although the client draws one character at a time, the generated text begins with given words of the vocabulary, each with a space behind it, exactly with the product of the words' probabilities (arc weight, after backing off as far as needed, over the sum for all words and the end of the text) and of the probabilities that the text does not end after them; then with given letters with the share of the words starting with them. It is exactly this text with the probability of the end of the text in addition, and never if the text cannot end there. The k continuations printed are the characters with the largest shares after the given text.", "quantifier": "every word automaton (deterministic, no circular backoff) and vocabulary beside any models that do not learn, history of requests, starting text, words, letters, random numbers, with room in the state table", "why_tests_cant": "an exact probability over all random numbers, automata, vocabularies and histories", "anchors": ["mozolm/grpc/client_helper.cc: ClientHelper::RandGen, OneKbestSample", "mozolm/models/ngram_word_fst_model.cc: NextState, ExtractLMScores", "mozolm/models/ngram_fst_model.cc: NextModelState, GetBackoff", "mozolm/models/language_model_hub.cc"]}
{"id": "C103", "title": "Bits per character with models that do not learn", "statement": "A client measures the bits per character of a file with a server whose models do not learn (n-gram models, mixed or not), after any requests that leave room in the state table. The figure is the sum, over the characters of each line and its end, of the bits of their probabilities in the replies of a freshly started server to the text of the line before them, over their number; unknown characters are counted and cost as if they had probability 0. It does not depend on what was asked before, so measuring again gives the same figure. With a character n-gram model every file is measured (unless it has the character 0 or one written like the epsilon symbol), the probabilities being the shares of the labels at the states of the automaton. With a word n-gram model the same holds as long as no letter inside a word leaves the vocabulary (that a file with unknown words is measured at all is false: one such letter makes the whole measurement fail).", "quantifier": "every set of n-gram models, history of requests, file, with room in the state table", "why_tests_cant": "an exact figure for all files, models and histories of requests", "anchors": ["mozolm/grpc/client_helper.cc: ClientHelper::CalcBitsPerCharacter, CalculateBits, UpdateCountGetDestStateScore", "mozolm/grpc/server_async_impl.cc: HandleRequest", "mozolm/models/ngram_char_fst_model.cc: ExtractLMScores", "mozolm/models/ngram_word_fst_model.cc: ExtractLMScores"]}
{"id": "C104", "title": "A server with several models is the mixture of servers with each of them", "statement": "A server interpolates several models. Beside it stand servers with only one of the models each, which get the same requests, updates included. With fixed weights (no Bayesian history), or as long as the state table has room, the state ids they reply with are the same as those of the mixing server (so a client can use either). With fixed weights, after any requests: if the single servers answer a request for scores (a context or an update) with some symbols and probabilities, the mixing server answers it, with the symbols listed by any of them in increasing byte order and the average of their probabilities, weighed by the normalised weights; and it refuses whatever one of them refuses. With bigram and PPM models, which learn, what the single servers answer are always probability distributions.", "quantifier": "every list of models, weights, history of requests with any texts, counts and state ids, and further request", "why_tests_cant": "a relation between whole servers over all histories, with recycling of states and with learning", "anchors": ["mozolm/models/language_model_hub.cc: NextState, AssignNewHubState, ContextState, ExtractLMScores, UpdateLMCounts, VerifyOrCorrectModelStates, InitializeModels", "mozolm/grpc/server_async_impl.cc: HandleRequest", "mozolm/models/simple_bigram_char_model.cc: UpdateLMCounts", "mozolm/models/ppm_as_fst_model.cc: UpdateLMCounts"]}
{"id": "C105", "title": "The Java example client shows the most probable continuations", "statement": "The Java example client asks a server for the continuations of a context and ranks them. After any requests to a server over the models of the repository it gets, without an exception (unless a count of a bigram model has run over), exactly the symbols of the server's reply to the context from the start state with their probabilities, the most probable first, equally probable ones in the order of the reply; if nothing was learnt they are those of a server just started. Its run on \"Hello wo\" logs the first five of them, marking \"r\" (that it always shows five is false: with fewer than five symbols, as with a bigram model of a small vocabulary, it logs them all and ends with an exception).", "quantifier": "every list of models, history of requests, context and reply", "why_tests_cant": "an order over all replies, ties included, and all servers and histories; the repository has no test of the Java clients", "anchors": ["mozolm/java/com/google/mozolm/examples/SimpleClientExample.java: getTopCandidates, ProbComparator, run", "mozolm/grpc/server_async_impl.cc: HandleRequest", "mozolm/models/language_model_hub.cc: ContextState, ExtractLMScores"]}
{"id": "C106", "title": "The client program: exit code, output and time-out", "statement": "The client program does what its configuration says at the address it says (localhost:50051 if it says none). It exits with 0 or 1; when it exits with 1 it has printed nothing, when with 0 exactly one result and a newline: the generated text, the k best continuations with their probabilities, or the number of characters, the number of unknown ones and the bits per character. It exits with 1 without sending any request if the configuration cannot be read or parsed, does not say what to do, or the corpus cannot be opened. Every reply is waited for the time the flag asks for in whole milliseconds, rounded down (so less than a millisecond is no time), five seconds if it asks for none; a request is undefined for a time that is NaN, infinite or 2^63 milliseconds or more. With a server in front of a PPM component that learns, after any history with room in the state table, the line printed holds the k most likely continuations, or the cost of coding the corpus, by the counts of the history.", "quantifier": "every configuration, flags, file system, server behaviour, and (last sentence) history of requests", "why_tests_cant": "all configurations, flag values and servers; the results depend on all earlier requests", "anchors": ["mozolm/grpc/client_async_main.cc:main", "mozolm/grpc/client_helper.cc:RunClient", "mozolm/grpc/client_helper.cc:ClientHelper::Init", "mozolm/grpc/client_async_impl.cc:MakeClientContext"]}
{"id": "C107", "title": "Relabelling keeps what a character model says", "statement": "Relabelling a character model with code points changes neither its states nor what they say: every character of the model leads from every state to the same state and has the same score there. If OpenFst keeps the symbols that get no new label in the table, the model read from the relabelled file replies to every request with the same symbols, probabilities and order, and a server with it, alone or among other models, cannot be told apart by any history of requests from one with the original. (In general it is false: if the table is made of the relabelled symbols only, as OpenFst documents, epsilon has no entry, and the first character of the table is missing from every reply, though every reply of the original lists it.) The program exits with 0 exactly when it read, relabelled and wrote the automaton, and otherwise with 1 and no file.", "quantifier": "every automaton accepted by the program whose symbols are distinct, whose characters are not NUL or one of the 27 spare control characters, and whose arcs carry labels of its table; every list of kept symbols, state, character, mixture, configuration and history of requests", "why_tests_cant": "all automata, symbol tables and request histories; the tests check labels of two small automata and never read the result as a model", "anchors": ["mozolm/utils/ngram_fst_relabel.cc:RelabelWithCodepoints", "mozolm/utils/ngram_fst_relabel.cc:GetCodepointMapping", "mozolm/utils/ngram_fst_relabel_main.cc:main", "mozolm/models/ngram_char_fst_model.cc:NGramCharFstModel::ExtractLMScores"]}
{"id": "C108", "title": "Models that answer alike are interchangeable", "statement": "A server depends on its models only through their answers. If every model is replaced by one that gives the same answers to the same calls, the server starts exactly when it did before, and after every history of requests every request gets the same reply (or both servers go wrong in the same way), whatever the mixture, the adaptive weights and the size of the state table.", "quantifier": "every kind of model, every number of models, hub configuration and history of requests", "why_tests_cant": "all models and all histories, including those that recycle hub states", "anchors": ["mozolm/models/language_model_hub.cc:LanguageModelHub", "mozolm/models/language_model.h:LanguageModel", "mozolm/grpc/server_async_impl.cc:ServerAsyncImpl"]}
{"id": "C109", "title": "The server program: from its files to the service", "statement": "Started from its flags, the server program has one of three fates. It serves exactly when the configuration can be read and parsed and any TLS files named can be read, every configured model (or the built-in bigram model if none is configured) loads from the files named, the kind of mixture is known and the address can be bound; then it serves exactly the configured models, in order, at the configured address, with the configured credentials and number of threads. It ends with exit code 1, and no other, exactly when the configuration is refused, or the reader of the first model that does not load reports an error, or the mixture is unknown or the address cannot be bound. It crashes exactly when the reader of the first model that does not load does not return. (That bad files only ever lead to exit code 1 is false: a bigram vocabulary that is not a list of numbers, a PPM automaton without symbols, or an empty training text without a vocabulary takes the whole server down.) If the files of all models are in order, it serves, every request for scores is answered whatever was requested before, and in every schedule everything that reached the server has been handled when it comes to rest.", "quantifier": "every set of flags, file contents, configuration (any number of models of the four kinds), result of binding the address, history of requests and schedule", "why_tests_cant": "all files, configurations and histories; the tests start the server with a few good files", "anchors": ["mozolm/grpc/server_async_main.cc:main", "mozolm/grpc/server_helper.cc:RunServer", "mozolm/models/model_factory.cc:MakeModelHub", "mozolm/models/ppm_as_fst_model.cc:PpmAsFstModel::Read", "mozolm/models/simple_bigram_char_model.cc:SimpleBigramCharModel::Read"]}
{"id": "C110", "title": "The two programs together: train on one text, measure another", "statement": "Start the server program with a configuration of one PPM model, a training text (with some character, and not containing the reserved symbol as a character) and possibly a vocabulary. Then it serves, and the symbols of its model are the reserved one, the characters of the text and those of the vocabulary. Start the client program for that address, whatever requests the server handled in between: told to measure a corpus, it prints the number of characters (with one end per line), how many of them the model does not know, and the average number of bits that coding the corpus costs with the memory that the training text and the requests have left, learning on as it goes, and exits with 0; told to list the most likely continuations of a context, it prints the most likely ones, with their probabilities under that memory, after as much of the context as the memory knows. Before any request that memory is exactly the counts of the training text. This holds while there is room in the server's table of states; and asking for more continuations than there are symbols is undefined behaviour.", "quantifier": "every training text, vocabulary, order, alpha and beta, configuration and flags of the two programs, history of requests of the server, corpus and context", "why_tests_cant": "all texts and histories; the tests start no server program, and check the client's tools against one model each", "anchors": ["mozolm/grpc/server_async_main.cc:main", "mozolm/grpc/client_async_main.cc:main", "mozolm/grpc/server_helper.cc:RunServer", "mozolm/grpc/client_helper.cc:RunClient", "mozolm/models/ppm_as_fst_model.cc:PpmAsFstModel::Read"]}
{"id": "C111", "title": "The Java example that teaches", "statement": "The Java example VocabOnlyModelClientExample, run against a server after any history of requests and with any string in the place of its literal text, comes to an end, with the two lists of estimates or because the server refused a request, never because its assertion fails or an index is out of bounds. With a text of the Basic Multilingual Plane against a server with one PPM model that learns, and while there is room in the server's table of states, the estimates shown first are the probabilities at the beginning of a string under the memory the requests before have left, and those shown last those under the memory that has learnt in addition each character of the text after the text before it, and the end. Against a server just started with a vocabulary only, the first estimates are equal for all symbols, and the last ones depend on nothing but the alpha and beta of the model, the first character of the text, and for each symbol how many different symbols come before it somewhere in the text. (That it teaches every text character by character is false: a character beyond the Basic Multilingual Plane is taught as two symbols, the character and then half of its surrogate pair, and each is followed by a question mark.)", "quantifier": "every history of requests, string, server model and configuration", "why_tests_cant": "all histories and strings; no test runs the example", "anchors": ["mozolm/java/com/google/mozolm/examples/VocabOnlyModelClientExample.java:run", "mozolm/java/com/google/mozolm/examples/VocabOnlyModelClientExample.java:updateModel", "mozolm/java/com/google/mozolm/examples/VocabOnlyModelClientExample.java:getProbs"]}
{"id": "C112", "title": "Training from a text and teaching it are the same", "statement": "A PPM model that learns, has the characters of a text file as its vocabulary and is taught the lines of the file, each once, with its end and from the beginning of a string, has the same symbols as the model that is trained from the file, and from then on behaves alike: after any further calls, the same for both, the two give the same scores and normalisation after every text. The order in which the lines are taught does not matter, and a trained model that is taught further lines is the model trained from all of them. Teaching a line n times at once is as training from a file with n copies of it. The same holds for servers: one whose model was trained from the file, and one whose model has it as its vocabulary and is taught its lines by update requests at state 0 before anything else, reply alike to every request for the scores after a text of characters, whatever else was asked in between, as long as there is room in the table of states. (No line may be empty: training skips empty lines, teaching counts their end.)", "quantifier": "every text, order, alpha and beta, history of further calls or of asking requests", "why_tests_cant": "all texts, orders and histories; the tests compare training and teaching on one text or not at all", "anchors": ["mozolm/models/ppm_as_fst_model.cc:TrainFromText", "mozolm/models/ppm_as_fst_model.cc:impl::CalculateUpdateExclusions", "mozolm/models/ppm_as_fst_model.cc:AddPriorCounts", "mozolm/models/ppm_as_fst_model.cc:PpmAsFstModel::UpdateLMCounts", "mozolm/models/ppm_as_fst_model.cc:PpmAsFstModel::AddExtraCharacters", "mozolm/models/language_model_hub.cc:UpdateLMCounts"]}
{"id": "C113", "title": "Counts stop growing", "statement": "A PPM model keeps the counts of symbols as floating-point costs (minus their logarithm), and from some count on, adding one is lost to rounding. After any history of calls every count kept after a context is one of those that adding one to one, again and again, reaches in the arithmetic of the model, and if that stands still after N steps, one of the first N + 1. A symbol taught more than N times after a context has the count reached after N steps there, whatever it had before, so that counts above N can no longer be told apart; teaching it there again, however often and whatever was called in between, changes no count of the model, and no history of calls can tell the model from the one before the lesson. The total kept after a context stands still at the same cost, so that two symbols taught there more than N times each have a count as high as the total of both. With costs kept to the precision g (2^-20 for a float between 8 and 16) counting always comes to stand still, and no count ever exceeds e^g / (e^(g/2) - 1), about 2 / g, whatever was taught. More generally, with any rounding that keeps the order of costs no count exceeds one at which rounding undoes one more, and counting comes to stand still if there are only finitely many rounded costs up to it; for floats, whose values between 8 and 16 are the multiples of 2^-20, none ever exceeds e^15, about 3.3 million. (That a symbol taught more often has a higher count is true of exact arithmetic only, where counting never stands still.)", "quantifier": "every arithmetic of costs, vocabulary or automaton, options, history of calls, state, symbol and count", "why_tests_cant": "needs millions of updates to reach, and holds for all histories and any arithmetic", "anchors": ["mozolm/models/ppm_as_fst_model.cc:PpmAsFstModel::UpdateHighestFoundState", "mozolm/models/ppm_as_fst_model.cc:PpmAsFstModel::UpdateNotFoundState", "mozolm/models/ppm_as_fst_model.cc:PpmAsFstModel::UpdateLMCounts", "mozolm/models/ppm_as_fst_model.cc:PpmAsFstModel::WriteFst"]}
