# Design

Formal model of `quantumblacklabs/causalnex` in Lean 4 (toolchain 4.33.0, Mathlib), under `lean/Verif/`.

## Conventions

* Each area has a model file (definitions mirroring the code, with file/line citations), a lemma file where needed and a
  `...Props` file holding only the property theorems, the small specification they use and non-vacuity examples.
* Exceptions are values (`Except`), loops are structural recursions or take fuel with a theorem that the fuel never runs out,
  mutation is returning the new value.
* Nondeterminism (set iteration order, heap/sort ties, optimiser result, random draws) is a parameter that theorems
  quantify over.
* Weights and probabilities are rationals or elements of an ordered field / reals. Floating point rounding is modelled for inference (C85) and
  colour gradients (C68) only.

## Plan per property
* **C01 Every edge keeps a valid origin** - Model: edge store as association list with attribute dicts, operation type, `step`/`run`. Proof: invariant by induction over operation lists. The per-edge attribute dict of networkx can overwrite `origin`; shown by a counterexample.
* **C02 Origin query partitions the edges** - List filter on the edge store; uses the C01 invariant.
* **C03 Threshold removal is exact, idempotent and composes by maximum** - Filter on the edge store; equational proof.
* **C04 Largest subgraph is a whole component with the most edges** - Components by reachability closure on finite node lists; proof of correctness of the closure, then of the max fold.
* **C05 Target subgraph is exactly the component of the node** - Same component function.
* **C06 threshold_till_dag terminates at a DAG and removes only weakest edges** - Recursion on the number of edges; decidable acyclicity proved equal to 'no directed closed walk'.
* **C07 BayesianNetwork accepts exactly connected DAGs** - Constructor as `Except`; acyclicity and connectedness against path-based spec.
* **C08 Node states are encoded by a bijection and the setter is atomic** - Setter as `Except` on the state; sort/dedup; index map bijection.
* **C09 State encoding of data round-trips** - Encode/decode over lists of rows; `Except` for unseen state.
* **C10 Fitted CPDs are conditional probability tables** - Counting model of the estimators (pgmpy is external: its documented formula is modelled). Rational arithmetic.
* **C11 fit_cpds validation and preconditions** - Decision logic of the validation branch.
* **C12 Prediction with complete data is the argmax of the reported probability** - Column lookup (mixed radix index of parents) and argmax.
* **C13 Prediction with incomplete data speaks in states** - The code returns codes: negation by a concrete witness; the partial theorem says codes decode to argmax states.
* **C14 Query without evidence returns exact marginals** - Flagship: factor algebra over finite assignments, junction tree exactness, end to end.
* **C15 Query with evidence returns exact conditional marginals** - As C14 with indicator factors and normalisation.
* **C16 Impossible evidence never crashes** - Support invariant of absorb (old separator zero implies target zero).
* **C17 Evidence validation** - Decision logic as `Except`.
* **C18 Join tree exists, is a tree and has the running intersection property** - Elimination order + maximum spanning tree argument.
* **C19 Triangulation yields a chordal supergraph with its maximal cliques** - Elimination loop by recursion on remaining nodes.
* **C20 Every CPD is used exactly once** - Fold over nodes; product over cliques equals product of CPDs.
* **C21 Variable introduction is resolved for every acyclic factor set** - Loop with fuel; progress lemma along a topological order.
* **C22 Propagation calibrates the tree for any visiting order** - Tree recursion with arbitrary neighbour order.
* **C23 Intervention implements the truncated factorisation** - State machine of the engine + joint distribution algebra.
* **C24 reset_do restores the original model after any history** - Refinement of the engine to a map of overrides; induction on histories.
* **C25 Interventions on different nodes commute and the last one on a node wins** - As C24.
* **C26 A rejected intervention changes nothing and is rejected exactly when invalid** - `Except` model of `_do` and `do_intervention`.
* **C27 Queries have no side effects** - State machine: query returns the same state.
* **C28 Forward sampling respects evidence and support** - Random choices as parameters; inverse CDF walk.
* **C29 Discretisation buckets are exact and monotone** - `digitize` as count of split points; monotonicity lemmas.
* **C30 Discretiser constructor accepts exactly valid settings** - Decision logic.
* **C31 Fitted split points are ordered, correctly many and data-order independent** - Sorted data, linear interpolation over an ordered field.
* **C32 Fit then transform covers all data** - Composition of C29 and C31.
* **C33 ROC/AUC evaluates predictions against the right class columns** - Strings as lists of characters; `lstrip` modelled exactly; counterexample + partial.
* **C34 AUC lies between 0 and 1 and the curve is monotone** - sklearn external; model of the step curve by thresholds over rationals.
* **C35 Cutting at discontinuities partitions the series exactly at gaps** - List recursion.
* **C36 Lagged matrices are time-aligned** - List slicing, index arithmetic.
* **C37 Dynamic transformer input checks** - Decision logic.
* **C38 Tabu constraints and no self loops hold for every optimiser outcome** - Optimiser = arbitrary point of the box; bounds construction modelled index by index.
* **C39 Threshold leaves only strong edges** - Entrywise definition.
* **C40 The acyclicity score vanishes exactly on DAGs** - Mathlib matrix exponential, nonnegative power series, closed walks.
* **C41 The polynomial acyclicity score of the pytorch version vanishes exactly on DAGs** - Binomial expansion / monotone powers of nonnegative matrices.
* **C42 The dual ascent loop terminates** - Loop with adversarial inner optimiser; measure = penalty multiplications left and iterations left. Infinite scores: counterexample of non-termination.
* **C43 Learning from a data frame is learning from its values with renamed nodes** - Relabelling of the edge list.
* **C44 Lasso split parametrisation recovers a signed matrix within bounds** - Entrywise.
* **C45 DYNOTEARS bounds line up with its parameter layout** - Index arithmetic of the flat layout (div/mod).
* **C46 Dynamic graphs only point into the present** - List comprehension model.
* **C47 The dynamic graph is acyclic iff its intra-slice part is** - No edge leaves lag 0 backwards; cycle projection.
* **C48 Dynamic column names round-trip** - Strings as character lists.
* **C49 DYNOTEARS input validation** - Decision logic.
* **C50 Variable-to-feature index map is a partition** - Index bookkeeping by prefix sums.
* **C51 Feature names and indices round-trip** - As C50.
* **C52 Schema validation imputes and checks exactly** - Character-level regex matcher; counterexample for trailing garbage.
* **C53 Generated structures are DAGs within the weight range** - Permutation conjugation of a strictly lower triangular matrix; rank argument.
* **C54 Generated dynamic structures are acyclic and point to the present** - As C46/C53.
* **C55 SEM sampling respects the schema** - All random draws are parameters (per variable, feature and row); the error cases are characterised.
* **C56 SEM sampling generates each variable after its parents** - Fold along a topological order writing blocks of columns; at the end every block satisfies its equation.
* **C57 Poisson sampler inverts its distribution function and is bounded** - Loop with fuel; cumulative sum.
* **C58 Gaussian-process index shuffling is undone** - Permutation inverse.
* **C59 Dynamic data generator writes lag columns correctly** - Layout arithmetic; the lexicographic order of the names disagrees with the lag-major layout for p >= 2: refuted by a concrete case, partial theorem otherwise.
* **C60 Tabu constraints expand to all columns of expanded variables** - The types are fitted one after another; an invariant relates every column to its original column, and one step adds exactly the pairs required (`Pytorch/ExpandTabu`).
* **C61 Pytorch bounds line up with the flattened network weights** - Flat layout arithmetic of the parameters; zero first weights mean no influence; derivatives of constant functions. Lifted to from_numpy and from_pandas with an arbitrary optimiser that respects the bounds (`Pytorch/MlpProps`, `LearnProps`, `LearnPandas`).
* **C62 Collapsing expanded columns aggregates exactly the groups** - Fold of row and column additions = block sums over a layout of columns; the score (polynomial in the collapsed squared weights) vanishes exactly without cycles (`Pytorch/CollapseProps`, `LearnAcyclic`).
* **C63 Column bookkeeping survives any sequence of expansions** - Induction over the types with the invariant `Laid` (positions, disjointness); names are a fold over the types in any order (`Pytorch/ExpandProps`, `Pytorch/ExpandNames`).
* **C64 Ordinal and categorical link functions give probability distributions** - Real analysis (sigmoid monotone, softmax).
* **C65 Dependent target has no children and constraints are not leaked** - Heap of mutable objects, references; `fit` only appends new objects (`Sklearn/Facts`, `PropsFit`); bounds argument of C61.
* **C66 Classifier predictions are classes and maximise reported probability** - Composition of the encodings of C63, the links of C64 and argmax / rounding (`Sklearn/PropsPredict`, `PropsClf`).
* **C67 Feature importances are aligned with features** - Invariant of the assignments to a series: keys are the features followed by new ones (`Sklearn/PropsCoef`).
* **C68 Colour gradients are valid and hit their ends** - Model of double precision rounding (`Float/Basic`) with its relative error; the arithmetic of a channel is parametric in the rounding (`Plots/Color*`).
* **C69 Plot attributes follow the documented precedence and leave the graph alone** - Heap of dictionaries, deep copy as fresh references; look-up after a fold of updates (`Plots/Attr*`).
* **C70 Inference after fitting answers from the estimated distribution** - Composition: the tables of C10 meet the hypotheses of C14-C28.
* **C71 The optimiser is given the true gradient of the objective** - Objective and gradient over the reals; Frechet derivative of trace(exp) by termwise differentiation of the power series (Mathlib), chain rule, index bookkeeping of the flat layouts.
* **C72 No warning and a suitable threshold guarantee a DAG** - Simple cycle of k edges contributes its squared weights / (k-1)! to the score; product bound.
* **C73 The classification report scores each state against its own name** - Composition with C11; report as a dictionary.
* **C74 AUC is the probability of ranking a true state above a false one** - Trapezoidal rule over sorted thresholds; dropping midpoints keeps the area.
* **C75 Dynamic data satisfies the structural equations in every row** - Invariant over rows; assignment along a topological order.
* **C76 Generated binary variables have both labels** - Quantile by linear interpolation over the sorted list; counting in a strictly sorted list.
* **C77 Generated data does not depend on the visiting order or on uninitialised memory** - Uniqueness of the solution of the block equations.
* **C78 A pytorch graph learned without warning has no cycle above the threshold** - Simple cycle of k variables contributes k C(n,k) (t^2/n)^k to the score (`Pytorch/CollapseProps`, `LearnAcyclic`).
* **C79 The pytorch losses are negative log likelihoods of the data** - Case analysis by type; logarithms of the link functions of C64; recodings of C63 (`Pytorch/LossProps`).
* **C80 The learned graph of a linear pytorch model is the fitted model** - Sum over the edge list = matrix product (`Pytorch/LearnAcyclic`).
* **C81 enforce_dag gives an acyclic graph and removes only the smallest edges** - Invariant of the loop: kept edges are at least as large as removed ones; the number of edges decreases (`Sklearn/PropsFit`).
* **C82 The coefficients of a linear estimator explain its predictions** - C80 composed with encodings, links and standardisation (`Sklearn/PropsLinear`).
* **C83 The generators for one type return columns of that type in a known order** - The wrappers call the generators of C55 and C56 with one default type; their theorems are instantiated, the columns selected by name (`Generators/Wrappers`, `Generators/WrappersProps`).
* **C84 The generators for one type reject invalid settings** - Instance of the error theorems of C55 and C56, and of `validate_schema` (C52) for the number of categories; counterexamples for settings that are accepted (`Generators/WrappersProps`).
* **C85 Inference in floating point is accurate** - The program of C14 is polymorphic in its arithmetic; simulation between the rounded and the exact run with a bound on the number of roundings of every table, by induction over the junction tree (`BBN/Rounding*`).
* **C86 With a good optimiser the learned structure is optimal and learning converges** - Loop of C09 with a hypothesis on every call of the optimiser; invariant: the last point is not worse than the given acyclic one for the objective with the current penalty; quarter decrease or maximal penalty give convergence (`Notears/Optimal`, `Dynotears/Optimal`, `Pytorch/Optimal`, `Notears/WitnessOptimal`).
* **C87 With an optimiser that finds stationary points, the learned weights satisfy the first-order conditions of the constrained problem** - Loop of C09 with a hypothesis on every call; the gradient with penalty is the gradient without penalty for the multiplier `alpha + rho h`, which is the next `alpha`; hand-written gradients are derivatives by C10 (`Notears/Multiplier`, `Notears/PropsMultiplier`, `Dynotears/Multiplier`, `Notears/WitnessMultiplier`; for PyTorch with one-sided derivatives because of the lasso penalty, after proving losses, penalty and score differentiable: `Pytorch/Smooth`, `Pytorch/Multiplier`, `Pytorch/WitnessMultiplier`).
* **C88 Edge weights and mean effects of the PyTorch version are average derivatives** - Differentiability of the network in its inputs (`Pytorch/Smooth`), then the definition of the adjacency matrix (`Pytorch/Effects`).
* **C89 An inference engine shares no mutable data with anyone** - A model of the engine in which every dictionary is an object on a heap (`BBN/EngineHeap`) and a specification with separate values (`BBN/EngineHeapSpec`). Refinement by a simulation in which each address has one owner and only the outer dictionary of `_cpds` is ever written (`BBN/EngineHeapSim`, `BBN/EngineHeapProps`).
* **C90 Constructing, copying and reversing a structure keeps exactly the given graph** - Model of the constructor (validation, `to_networkx_graph` as node and edge insertion, origin set on every edge) and of networkx's `copy` and `reverse` through the overridden `add_edges_from`. Induction over the inserted edges (`foldl_add_spec`, `refill_spec`).
* **C91 Stationary dynamic data: what is returned, when it warns and when it ends** - Both loops are modelled with the random numbers and arithmetic failures of every attempt as parameters; the inner loop with fuel, the outer by recursion on the trials left. Induction over both loops; the data through the theorems for C75.
* **C92 Interventions in floating point: what is accepted and what is answered** - The engine of C23 on rounded numbers, with dicts as lists in their order (`BBN/EngineFloat`); invariant over all histories (`BBN/EngineFloatInv`). Lemmas on rounding: monotonicity, error relative to the result, exactly which numbers round to one (`Float/Sum`). Queries by C85 and the truncated factorisation of C23 (`BBN/EngineFloatProps`, `BBN/EngineFloatWitness`).
* **C93 With incomplete data predict_probability returns the columns of the requested node** - Model of the compiled pattern for names with dots and parentheses (`Network/Pattern`); which names it selects, by induction over name and pattern (`Network/PropsIncomplete`). Other special characters are not modelled.
* **C94 Sampling in floating point: what is returned, when it fails, and its law** - The program of C28 run on numbers whose operations round (`Rounding`); running sums in double precision against exact cumulative probabilities (`BBN/SampleFloat`), boxes of random numbers and their volumes by induction over the variables left (`BBN/SampleFloatLaw`). A concrete failing draw is evaluated.
* **C95 fit_node_states_and_cpds learns states and probabilities from the same data** - Composition of the models for C08 and C10; the estimates are stated with counts of rows of the data frame (`Network/PropsStates`).
* **C96 A fit of a scikit-learn estimator that raises leaves its predictions as they were** - `fit` as a program that also returns the attributes set before the exception (`Sklearn/Model`: `afterScaling`, `beforeLearning`); a case per line that can raise (`Sklearn/PropsFailed`). The code violates the full statement: a counterexample is proved (`Sklearn/FailedExample`).
* **C97 Networks built from a dict of conditional probabilities answer exactly** - The dict as a list of entries; keys sorted as by `sorted`; the node functions and `build_bbn` (`BBN/Conditionals`). The functions are those of a network in the sense of C14, so the theorems on queries apply; the joint is the product of the probabilities in the dict. A combination without an entry raises at once in the model (simplification; excluded in the theorems).
* **C98 Every name of a node that the inference engine accepts can be used** - Names as strings; the regular expression as a function on strings; the frame of a node function as a dict from names to a state or the engine; keyword arguments (`BBN/Names`). The code violates the full statement: `self` is accepted and makes every query raise; a newline at the end is accepted.
* **C99 Queries respect d-separation** - d-separation by paths as in textbooks (`Graph/DSep`); what a Bayes ball reaches is d-connected; the families of the ancestors of the variables concerned split into those inside and those outside of what it reaches, so the sum over all assignments is a product (`BBN/DSep`); then the theorem on queries (C14, C23) for reachable engines (`BBN/PropsDSep`).
* **C100 Setting a variable is like observing it when no back-door path is open** - The network in which the children of v see the state s in place of v has no arrows out of v, gives events with v = s their old probabilities, and other events those after the intervention (`BBN/Backdoor`); d-separation (C99) in it is the claim (1); (2) by summing over z, which keeps its probability (C23) (`BBN/PropsAct`).
* **C101 Setting a variable to a distribution is mixing its states** - The truncated factorisation is linear in the distribution (`BBN/PropsAct`).
* **C102 Interventions without effect** - The third rule of the do-calculus (Pearl): graph with a further root pointing to v, d-separation there; ratio of masses with the table of v replaced.
* **C103 Building a network from a dict of conditional probabilities comes to an end** - The loop of `get_original_factors` against iteration of its sweep, without the fuel of the model; invariant that every function introduces its own variable.
* **C104 Maximum likelihood estimates maximise the likelihood** - The inequality of arithmetic and geometric means in an ordered field, applied to the observations of a node for each configuration of its parents. Uniqueness: the mean of two best tables would be better.
* **C105 Predictions agree with exact inference** - Local Markov property: sum over all non-ancestors, then the factor of v does not depend on what is left (`BBN/LocalMarkov`); the fitted network as a network for the engine (C70) and the theorems on prediction (C12) (`Network/PredictQuery`).
* **C106 Predictions after fitting are the most frequent states** - Estimates are ordered like counts, for each method; then C12 (`Network/Counts`).
* **C107 What fitting depends on** - The table as an explicit function of counts (C10); counts as a function of the multiset of rows reduced to the nodes (`Network/Counts`).
* **C108 Answers to different queries fit together** - From the theorem on queries (C15, C16) with masses of events: products and sums of quotients (`BBN/Coherent`).
* **C109 Structure learning does not depend on the order of columns and rows** - The problem for the reordered data is the reordered problem (score, loss and gradient under a permutation of the indices); a simulation between the two runs of the loop; names cancel the reordering (`Notears/Reorder`). That L-BFGS-B treats all coordinates alike holds at most in exact arithmetic and is a hypothesis.
* **C110 What NOTEARS uses of the data** - Loss and gradient in terms of the Gram matrix divided by the number of rows; the problems handed to the loop are then equal (`Notears/Moments`).
* **C111 Fitted probabilities and predictions in double precision** - The model of fitting is written for any type of numbers; here it is run with rounded numbers. Whole numbers are exact, so maximum likelihood and K2 round once; for BDeu the errors of the operations are counted. Monotonicity of rounding and the gap between counts give the statement on predictions (`Network/FitFloat`).
* **C112 From data to answers in double precision** - The fitted tables are close to the exact estimates (C111), so joint weights and conditional probabilities are close by counting factors; the engine adds the error of C85/C92 (`Network/QueryFloat`).
* **C113 The size of join trees** - The textbook definition of the minimal fill order against the loop; if a fill-free order exists, the least number of missing edges is 0 at every step (`BBN/MinFill`). Graphs without chordless cycles have such an order (Dirac's theorem, proved in `BBN/Chordal`); in networks without undirected cycles leaves come first.
* **C114 What DYNOTEARS uses of time series** - The loss and its gradients are functions of mean products of columns, as in C110; the rows of X and of the lagged matrix are the windows of the series, so frequencies of windows determine the mean products (`Dynotears/Moments`).
* **C115 DYNOTEARS does not depend on the order of columns** - As C109: the objective with its two gradients, the bounds of the optimiser and the graph are compared before and after permuting columns in each block of lags (`Dynotears/Reorder`).
* **C116 What the PyTorch learner uses of the data** - Categories and log odds of classes are functions of relative frequencies, the loss is a mean over rows; so the learning problem handed to the optimiser is the same and so is everything built from its answer (`Pytorch/Rows`).
* **C117 What DAGRegressor and DAGClassifier use of the data** - Scaling, learning (C116) and prediction are compared for two fitted estimators that differ only in the counts an ordinal type keeps (`Sklearn/Rows`).
* **C118 Discretising in double precision** - The discretiser with every operation rounding (`Discretiser/Float`); rounding is monotone, relative errors multiply; what numpy returns for a quantile is a parameter.
* **C119 What plot_dag shows** - `plot_dag` on a heap of attribute dictionaries (`Sklearn/Plot`), from C69 (plots) and C81 (removing edges); drawing is not modelled.
* **C120 Evaluation depends on relative frequencies only** - Curve, averages and scores as functions of counts (`Evaluation/PropsFrequency`): proportional counts give equal rates; predictions are found row by row.
* **C121 The averages in the classification report** - scikit-learn's averages modelled from its documentation (`Evaluation/Model`), identities by summing counts over the states (`Evaluation/PropsReport`).
* **C122 The law of generated counts and categories** - Random numbers as independent random variables (`Generators/Law/Spec`); the largest of independent Gumbel variables by integrating over one of them (`Law/Gumbel`), the Poisson quantile of a uniform number (`Law/Count`), disjoint blocks of independent variables (`Law/Blocks`), and the equations of C56 with uniqueness along a topological order (`Law/Core`, `Law/Props`). The failure of the alias by an integral (`Law/Logit`).
* **C123 From a structure to answers without an exception** - Composition of the models of the structure (C04-C06), of the network (C07, C95) and of the inference engine (C70, C105); the component of a node in an acyclic graph is connected and acyclic, so the constructor accepts it; evidence in a row of the data has positive estimated probability.
* **C124 The law of random structures** - Measure theory on the model of C53: the random numbers are random variables; the event that a graph is returned is a disjoint union over the permutation of products of events for single numbers; independent blocks multiply. For barabasi-albert the bag is a function of the history of attachments and a history is an intersection of events for single choices. The expected degree is the sum of the probabilities of the edges at the node.
* **C125 NOTEARS recovers linear models with errors of equal size** - Write 1 - W = (1 - V) T. Acyclic weights have det (1 - W) = 1 (only the identity permutation contributes), so det T = 1; the squared error of W is half the error size times the sum of squares of T, which by the inequality of means for the eigenvalues of the transpose of T times T is at least the number of columns, with equality only if T is orthogonal. Then (1 - W) (1 - W)^T = (1 - V) (1 - V)^T and W = V by induction over the nodes, removing a sink of W. The version with tolerances is by compactness and continuity of the acyclicity score, combined with the theorems of C72 and C86 about the learning loop.
* **C126 NOTEARS learns the graph from data generated with it** - Composition of the models of the generator (C76, C122) and of NOTEARS. In generated data the errors of the equations with the weights of the graph are the noise drawn; their mean products converge in probability by the law of large numbers; then C125 applies, with one tolerance for the finitely many orders of the columns.
* **C127 Tables fitted to enough rows are close to the probabilities behind the data** - The frequencies of complete assignments converge by Chebyshev's inequality and a union bound. If they are within delta of the probabilities, every count is a sum of them; the estimate (N + alpha) / (total + k alpha) is then close to the ratio of the probabilities, which is the conditional probability by the local Markov property. Products over all nodes are close; where some parent states are impossible a factor with possible parent states is zero (a first such node along the edges). Ratios of masses are then close, and C70 turns them into answers of the engine.
* **C128 Samples drawn in one call are independent draws from the conditional distribution** - For fixed choices of the variables the outcomes of random.random() that lead to given samples form a box, the product of one interval for each draw (C28 for one sample; the cache keeps its invariant between samples). The probability of the box is the product of the lengths, and the event is the disjoint union over all choices of the variables.
* **C129 A network refitted to samples of a fitted network is close to it** - By C128 the samples have the joint law of independent rows of the distribution of the fitted network; a joint law which is a product makes the rows independent (rowsFrom_of_joint, summing over all tables of assignments). C127 then applies to the second fit.
* **C130 The lasso penalty decides whether any edge is learned, at the largest mean product of columns** - Expanding the square gives squared error + penalty = error at zero - sum of weight times correlation + square of the prediction + penalty. If each correlation is at most the penalty, weights not worse than zero predict nothing and so have no penalty (lasso_zero_best). If one is larger, a single small weight of its sign is better than zero (lasso_single_better), and a single edge is acyclic. C86 gives that the learned weights are not worse. Minima exist because the objective is continuous (C71) and at least a multiple of the sum of the nonnegative coordinates.
* **C131 DYNOTEARS recovers dynamic linear models with errors of equal size** - With 1 - W = (1 - U) T and lag weights A, B the residual of (W, A) is E T + Y (B T - A), with E the errors of U and Y the earlier values. Its mean square is, up to the tolerance, v times the sum of the squares of T plus at least kappa times the sum of the squares of B T - A; C125 bounds the first below by v d with near equality only near the identity. C86 gives that the learned weights are not worse than u; C61 translates weights to edges.
* **C132 Displaying a plot touches only its own axes** - Figures and axes are positions in lists; rendering and decoding are parameters that may raise. The sequence claim is an induction over the calls with the effect of one call.
* **C133 The PyTorch version recovers linear models with errors of equal size** - The loss of the network without hidden layers is the squared error of its weights on the data (centred if there is a bias) plus the squared distances of the biases from the intercepts plus the penalties; its score is the polynomial score of the squared weights. C125 is proved for every continuous score that is positive if there are cycles; C86 gives that the learned network is not worse than the equations; C61 and C80 translate weights to edges.
* **C134 Predictions after fitting to enough data are the best possible ones** - C127 gives entries closer to the conditional probabilities than half the smallest gap between two different ones; predict returns the state with the largest entry (C12), which is then a state of largest conditional probability. That other nodes that are not descendants do not help is the local Markov property (C105), summed over their states.
* **C135 Causal effects estimated from enough data are close to the true ones** - As for C127, with the factor of the node replaced. An assignment that is impossible in the data has a factor zero whose parents are possible (C127); by overlap this is not the factor of the node unless the intervention gives the state probability zero, so the estimated truncated factorisation (C23) is close to the true one for every assignment.
* **C136 DAGRegressor recovers linear models with errors of equal size** - Weights near the true ones fit almost as badly as these (Notears.nearby_error), so the distance of the learned constants from the best ones, which the loss contains, is small; with C133 this bounds the difference of the predictions of the network from those of the equations (Pytorch.fromNumpy_predicts). The fit of a regressor is a call of from_pandas for features and target (C65, C66), which gives coefficients and predictions. The constant enters through the means: near the means the prediction is good although the constant alone, far from the data, need not be.
* **C137 NOTEARS is consistent: from enough independent rows it learns the equations behind them** - The means of the products of errors are averages of independent numbers: the strong law of large numbers gives the limit (equalErrors_eventually), Chebyshev's inequality bounds the probability that they are far from what is expected (equalErrors_likely). Then C125 applies, for both versions. C83 says that the errors of the equations in generated data are the noise (Recover.generated_errors), for the noise scale 1 of the same size at the roots and elsewhere. C126 is the convergence in probability for data frames, with weaker assumptions on the noise but no rate.
* **C138 DYNOTEARS is consistent: from a long enough time series it learns the dynamic equations behind it** - C131 needs two things of the data: errors that are nearly uncorrelated with one another and with the earlier values, and earlier values that vary (LagsVary). The second follows from the first for a longer stretch of the series: replacing the latest values by what the equations say, p times, every linear combination of the earlier values turns into an invertible combination of errors and a rest that is nearly uncorrelated with them (Recover/Lags.lean, compactness of the unit sphere gives the constant). The first is a law of large numbers for products of an error and something known before: such products are uncorrelated, so that the mean square of their sum is at most n times a constant (sum_square), and Chebyshev's inequality applies (close_likely). For generated data the series is extended by zeros before its start, which is what the code's Xlags does; independence of noise gives independence of the past (indep_values); the mean squares of stable equations are bounded (square_bounded). Almost surely: Borel and Cantelli along the squares, where the bound on the mean square is summable, and between two squares a block of absolute values with a mean square of the order of its squared length (Recover/DynStream.lean). For data frames: the index has no gaps, so that the transformer makes the arrays of one window (Holds.transform), and the names of the learned nodes are those of the columns (fromArrays_correct).
* **C139 Names of nodes and states make no difference** - Relation between two networks over different types of names (`BBN/RenameSpec`); simulation of the engine operations, with sums over assignments reindexed by the renaming (`BBN/Rename`); the estimates from the data are reindexed in the same way (`Network/Rename`). Answers are compared through the exactness theorems (C14-C16), so nothing about visiting orders is assumed.
* **C140 Refitting on a growing data set settles down to the truth** - Strong law of large numbers for the frequency of every assignment (`Consistent/Stream`), and the deterministic halves of C127, C134 and C135: rows in which every assignment has nearly its probability give the conclusion (`fit_close`, `predict_close`, `intervention_close`).
* **C141 Scores on a large test set are close to the true performance** - C73, C121 and C33 express the scores by counts of rows and pairs of rows (`Evaluation/Limit`). Counts converge by the strong law of large numbers; averages over pairs of rows are sums over pairs of assignments of products of frequencies, and converge to the expectation for two independent rows.
* **C142 How many rows are enough to fit a network** - Hoeffding's inequality (`Consistent/Enough`) for the number of rows with the given states of the parents and for the number of those with the state of the node minus its conditional probability times the former, which has mean 0 by the local Markov property; union bound over all entries; then arithmetic with the estimate (N + alpha) / (total + k alpha).
* **C143 Frequencies in a sample are close to the answers of a query** - Union bound over the sequences of complete assignments whose frequencies are off, with the product formula of C128 for the probability of each of them; the sum of these products is the probability of the bad sequences under a product of finite distributions, to which Hoeffding's inequality of C142 applies (`Consistent/SampleFrequency`).
* **C144 Quantile buckets are balanced, on the fitted data and on the population** - `Discretiser/Balance`: the quantile lies between two neighbouring order statistics, so fewer than w (N - 1) + 1 data lie below it, more than w (N - 1) at or below it and, for distinct data, at least w (N - 1) below it; a bucket is the difference of two such sets. `Discretiser/Population`: if the distribution function at the fitted quantile is off by epsilon + 1 / n, the number of data below a fixed quantile of the distribution is off by n epsilon, and Hoeffding's inequality of C142 bounds the probability of this.
* **C145 Markov equivalent structures give the same answers** - `Graph/Equivalent`: among the arrows that go the other way in the equivalent graph one is covered (its head has the parents of its tail and the tail); turning it around keeps the graph acyclic and equivalent (Chickering), so a quantity that survives such a turn is the same for equivalent graphs. `Network/Equivalent`: the product of the estimates survives, as P(u | Z) P(v | Z, u) = P(v | Z) P(u | Z, v) for counts and for BDeu, also with empty cells; the answers are ratios of sums of this product.
* **C146 Without colliders, answers about linked nodes are relative frequencies in the data** - `Network/Frequencies`: by induction along the arrows the distribution of each family (node and parents) is that of the rows: without colliders the parents are linked, so they lie in the family of one of them; sets of linked nodes lie in one family; marginalising keeps the property.
* **C147 More edges never lower the likelihood of the training data; equivalent structures have the same likelihood** - `Network/Scores`: the tables of the smaller structure are conditional probabilities for the larger one (parents that were added are ignored), so C104 applies to the larger fit. For equivalent structures the probability of a row is the joint weight, which C145 shows to be the same.
* **C148 Interventions cannot tell equivalent structures apart, if the nodes have the same parents** - `Graph/Equivalent`: turning covered edges one at a time never changes the parents of a node whose parents agree. `Network/Equivalent`: so the product of the estimates of the other nodes is the same. `BBN/Exchange`: a simulation between the engines; the interventions in force are the same and the graphs without the arrows into nodes that are set have the same links.
* **C149 From data to the answers under interventions** - `Network/FitDo`: induction over the calls with the interventions in force as invariant (`BBN.Under`), then the mass of the engine is the mass of the product from the data.
* **C150 The effects of several interventions, from enough data** - `Consistent/CausalMany`: the answers under interventions computed from data (C149) are those of a product of estimates and given distributions; if the frequencies are close, the product is close wherever the true product with the replaced factors is positive, and small elsewhere. Closeness of frequencies as in C127 (probability) and C140 (almost surely).
* **C151 A network trained on enough data reaches the best possible accuracy on a large test set** - `Evaluation/Trained`: from some number of training rows on predictions are those of an optimal rule (C140); in the test rows every assignment has nearly its probability, uniformly over all rules the share of right predictions is nearly its probability; the report holds this share (C121).
* **C152 The law of random dynamic structures** - `Generators/Law/Dynamic`: which graphs are drawn, as a condition on the random numbers (showsDyn_iff); the numbers for the present and for the past are independent (intra_indep); within the past every edge has its own numbers (past_law). Expected numbers of edges are sums of probabilities (`Generators/Law/DynamicMean`).
* **C153 Effects of actions through a mediator, with a hidden common cause (front-door adjustment)** - `BBN/FrontDoor`: acting on x is like observing it for m; after that, acting on m is like observing it for y; with m set, x has no effect on y; adjustment for x. The second and third step are in networks that need not be in one piece, so they are shown for probabilities, not for engines. The conditions of the steps follow from the criterion (FrontDoor.second, FrontDoor.no_return).
* **C154 The PyTorch version and DAGRegressor are consistent: from enough independent rows they learn the equations behind them** - Strong law of large numbers for the columns, the errors and the products of errors; the errors with respect to the centred data of the table are the errors minus their averages (firstRows_residual), so that their mean products converge too (settled_eventually). C133 and C136 then apply, and the constants and means of the table are replaced by the true ones (near_truth).
* **C155 With a wrong structure the network learned is the best one with that structure, and answers and predictions within it stay right** - The law of large numbers gives the frequencies of the rows; the estimates converge to quotients of probabilities (estimates_limit), the answers are continuous functions of the tables (answers_limit). In a structure without colliders the nodes of a clique that are an initial piece of the order factorise as in the true distribution (limit_linked). The limit network is the best one by Gibbs' inequality, node by node (limit_best).
* **C156 Nodes that are not ancestors can be left out of the structure** - The estimates for a node use its own column and those of its parents only (observed_leaveOut). In the distribution of the whole network the nodes outside a set closed under parents sum out (massOf_ancestral), so events about the nodes kept have the same weight in both.
* **C157 With standardize=True units of measurement do not matter** - The scalers fitted to the data in new units are the old ones in new units (scalerFit_units), so the scaled data are the same (scaleValues_units) and fitting, as a function of values (pureFit), gives the same graph; predictions undo the scaling of the target (basePredict_units).
* **C158 What the prior of the Bayesian estimator does** - A Bayesian estimate is rewritten as a weighted mean (estimate_bayesian); the counts of the states of a node add up to the rows with the states of its parents (observed_sum), known rows only. Predictions: both methods predict the smallest of the most frequent states (C106), which is unique.
* **C159 Fitting to two data sets together, and to one more row** - Counts of rows add up; estimates are determined by counts (estimate_counts). Predictions: the smallest of the most frequent states in both data sets (C106) is the smallest of the most frequent in both together.
* **C160 Small changes of the tables change the answers little** - Joint probabilities are products of m entries (massOf_framesOf), so they differ at most by c^m, and so do sums of them; answers are quotients of such sums (query_answers).
* **C161 Units of measurement do not matter to discretisation** - Sorting, extremes, interpolated quantiles and the binary search commute with increasing affine functions (sort_map, max_map, quantile1_units, searchRight_map).
* **C162 What the extreme areas of roc_auc mean** - From rocAuc_correct_partial: a sum of numbers that are not negative is zero exactly if each is (double_sum_zero_iff), and the scores are the entries of the table (mem_scoresOf).
* **C163 What the scores of classification_report can be** - From classificationReport_correct: the counts in the numerator are at most those in the denominators, with equality exactly if one condition implies the other (countP_and_eq_iff), and the harmonic mean lies between its arguments (f1_range).

## Trusted base

* Lean's kernel (re-checked by replay) and the axioms `propext`, `Classical.choice`, `Quot.sound`; no theorem depends on any other axiom, there is no
  `sorry`, no `native_decide`, no `bv_decide`.
* The reading of the Python source: every definition cites the lines it models; simplifications are stated there.
* The documented behaviour of libraries the code calls (networkx graph operations, pandas `map`/`apply`/column assignment,
  numpy `reshape`/`digitize`, pgmpy's estimators, scipy's box-constrained optimiser): modelled as stated in the comments of
  the model files.
* Python's `f_locals` of versions 3.6 to 3.8, the ones the package is made for (C98).
* Arithmetic is exact: probabilities and weights are elements of an arbitrary (linearly ordered) field, or reals. Floating point
  rounding is modelled only for inference, interventions and sampling (C85, C92, C94), estimation of probabilities (C111, C112) and colour gradients (C68): every operation rounds with a bounded relative error, no overflow, underflow or nan; sums are taken in one fixed order.

## What is modelled

| Area | Model files | Code |
| --- | --- | --- |
| StructureModel | `Graph/*`, `Structure/*` | `structure/structuremodel.py` (all methods except plotting helpers) |
| Exact inference | `BBN/Model`, `BBN/Query`, `BBN/Conditionals` ... | `ebaybbn/bbn.py`, `ebaybbn/graph.py`, `ebaybbn/utils.py` (moralisation, triangulation, join tree, potentials, propagation, marginals; with exact and with rounded arithmetic) |
| Inference engine | `BBN/Engine`, `BBN/Sample`; theorems on d-separation, interventions and local dependence in `Graph/DSep`, `BBN/DSep`, `BBN/Backdoor`, `BBN/PropsAct`, `BBN/Policy`, `BBN/LocalMarkov` | `inference/inference.py` (construction, query, do, reset, forward sampling); with dictionaries as values (`Engine`) and as mutable objects on a heap (`EngineHeap`) |
| BayesianNetwork | `Network/*` | `network/network.py` (all public methods) |
| Discretiser | `Discretiser/*` | `discretiser/discretiser.py` (constructor checks, fit, transform, fit_transform; `Float`: the same in double precision, numpy's quantile then being a parameter) |
| Time series transformer | `Transform/*` | `structure/transformers.py` (all methods) |
| NOTEARS | `Notears/*` | `structure/notears.py` (all functions; the optimiser is a parameter) |
| DYNOTEARS | `Str/Basic`, `Dynotears/*` | `structure/dynotears.py` (all functions; the optimiser is a parameter) |
| Variable-feature mapper | `Str/Dict`, `Mapper/*` | `structure/categorical_variable_mapper.py` (all methods; the iteration order of a set of type names is a parameter) |
| Evaluation | `Evaluation/*` | `evaluation/evaluation.py` (all functions; scikit-learn's metrics are modelled from their documentation) |
| Data generators | `Generators/*` | `structure/data_generators/core.py`, `wrappers.py`: structure generators, dynamic data, the loop for stationary data, Poisson sampler, Gaussian process index, linear and nonlinear structural equation models and their wrappers for one type (random draws are parameters) |
| PyTorch NOTEARS | `Pytorch/*` | `structure/pytorch/dist_type/*.py` (link functions, preprocessing of data, excluded edges and names), `structure/pytorch/notears.py` (all of `from_numpy` and `from_pandas`), `structure/pytorch/core.py` (network, bounds, adjacency, score, losses, augmented Lagrangian loop), `structure/pytorch/nonlinear.py` |
| scikit-learn wrappers | `Sklearn/*` | `structure/pytorch/sklearn/_base.py`, `reg.py`, `clf.py` (fit, predict, predict_proba, coefficients, importances, intercepts, `plot_dag` up to what it passes to the plotting library). Mutable objects are positions in a heap. scikit-learn's checks of inputs are reduced to shapes |
| Plots | `Float/Basic`, `Plots/*` | `plots/plots.py` (gradients with double precision, attributes; drawing and layout not), `plots/display.py` (with Graphviz, the PNG decoder and matplotlib's effects as described there) |

Not modelled: floating point (except for inference and sampling, C85, C92 and C94, estimation of probabilities, C111 and C112, the discretiser, C118, and colour gradients, C68), internals of pgmpy/networkx/numpy/scipy/torch, plotting back ends, logging, pickling, exhaustion of memory and Python's limit on the depth of recursion (`copy.deepcopy` of a join tree and the message passing of `query` recurse along paths of the tree, so an extremely deep network raises `RecursionError`).

## Where code and English property disagree

Each disagreement is a proved counterexample in the model, and the property is marked partial (or its statement restricted).

* **C01**: a per-edge attribute dict passed to `add_edges_from` can overwrite `origin` with any value.
* **C07**: a structure with a single node and no edge is accepted, and the network then has no node (`init_single_node`).
* **C08**: lists with repeated states (not sets) give codes with gaps; the theorem is about sets, as documented.
* **C09**: a state unknown to `node_states` is not rejected when fitting; its row is silently left out (`unseen_state_accepted`).
* **C12**: if a parent is named `{node}_{state}`, `predict_probability` overwrites the parent's column and returns wrong
  probabilities without an error (`predict_probability_collision`).
* **C13**: with incomplete data `predict` returns codes instead of states (`predict_incomplete_codes`), and needs a column for the
  node that is to be predicted (`predict_incomplete_needs_node`).
* `predict_probability` with incomplete data names its columns by codes (`predict_probability_incomplete_codes`); it also uses the name of
  the node as a regular expression, so that names with special characters match other columns or none (**C93**).
* Setting `node_states` after fitting relabels the old CPDs (`stale_cpds`).
* **C23**: an accepted intervention on the middle of a chain disconnects the graph; all later queries raise (`do_can_break_queries`).
* **C25**: of two interventions one order can be accepted and the other rejected (`do_order_matters`).
* **C26**: a state label that is not an `int` makes `do_intervention` raise `AttributeError`, against its docstring.
* **C92**: `do_intervention` compares a sum of floats with 1.0: the probabilities 0.1, 0.2, 0.7 are accepted in this order and rejected in the
  reverse order (`do_double_order`); ten times 0.1 is always rejected (`do_double_uniform`).
* **C98**: a node called `self` is accepted by the engine, and every query then raises (`query_self_raises`): the value of the argument
  is replaced by the engine in the frame of the node function. The pattern also accepts a newline at the end of a name (`matchName_iff`).
* **C103**: `build_bbn_from_conditionals` with a misspelt parent (or a cycle) loops for ever (`conditionals_build_returns_iff`).
* **C28**: for a random number exactly 0 a state of probability zero can be drawn (`draw_zero_impossible`).
* **C30**: the number of buckets is not checked; 0 is accepted (`create_accepts_zero_buckets`).
* **C36**: a repeated time stamp is accepted and treated as a step of one time unit (`repeated_time`).
* **C37**: refitting a transformer on other columns is refused (`refit_other_columns`).
* **C42**: if the acyclicity score is infinite (overflow), the penalty is not increased and the loop does not end
  (`from_numpy_diverges`).
* **C49**: without any column `from_numpy_dynamic` raises `ZeroDivisionError` before its own checks.
* **C50**: if a variable is named like a feature of a categorical one (`A_0`), two variables share a column and another column
  belongs to none (`clash_shares_index`); the theorems assume no clash, as the property does.
* **C52**: `categorical:3abc` passes `validate_schema` and cannot be expanded (`validated_not_expandable`); any string containing
  the name of a type is a known type (`unknown_type_accepted`).
* **C33**: `lstrip` takes a set of characters, not a prefix, and one frame is sorted by value, the other by string: for states 2
  and 10, or for the states `bad` and `wet` of a node `weather`, perfect predictions get an area of 0 (`numbers_area`,
  `weather_area`); equal labels raise (`clash_area`). `renamed_aligned_iff` says exactly when the columns are aligned.
* **C59**: `generate_dataframe_dynamic` names the lag columns in sorted order but fills them lag by lag: for two variables and p = 2
  the column `0_lag2` holds variable 1 one row earlier (`generateDataframe_mislabelled`). For `n_samples = 0` the slice `X[-0:]`
  returns all rows.
* `generate_structure_dynamic`: the documentation says that an inter-slice edge has probability `degree / (num_nodes - 1)`; the code uses
  `degree / num_nodes` (`Dynamic.lean`).
* **C91**: the last of the `max_data_gen_trials` attempts is always thrown away: with one trial even data that are fine are replaced by constant
  data, with a warning (`one_trial`). With `p = 0` and nonzero degrees the inner loop never ends (`genStationary_diverges`). If every attempt
  overflows before there is a graph, `None + None` raises `TypeError` in place of the warning.
* **C76**: the correction of unbalanced labels uses the wrong end: with nearly all latent values positive the threshold becomes the
  95% quantile, so about 5% are labelled 1 instead of about 95%; with few positive ones about 95% are labelled 1
  (`binaryLabels_many`, `binaryLabels_few`; also part of `Realises`).
* **C122**: the documentation calls `gumbel` an alias of `logit` for categorical variables. Only with `gumbel` the probabilities are
  those of the multinomial logit model (`semGenerator_law`); with `logit`, the default, they are not (`logit_not_softmax`).
* `sem_generator`: the distributions documented per type are not checked; any key of one common table is accepted (for example
  `binary: "gumbel"`), and only if a variable or edge of that kind exists (`Valid`, `ValidLinear`).
* **C64**: the inverse link of an ordinal variable returns only its class probabilities instead of the whole data, so the variables
  after it in the schema are reconstructed from the wrong columns (`ordinal_not_last`).
* **C62**: `graph_collapsed` is computed from the weights before the threshold is applied, so it can have edges between variables that
  have no edge in the learned graph.
* **C78**: no warning is given if the penalty reaches `rho_max`, although the score may still be above the tolerance (`fit_no_warning`).
* **C79**: values of binary columns are not checked; with a value of 2 the objective has no lower bound (`binary_unbounded`). An ordinal
  variable with a single value raises `IndexError` in the loss (`fromNumpy_total`).
* **C80**: with hidden layers the node attribute `bias` of column k is the bias of unit k mod m of column k div m (`fromNumpy_bias`).
* A hidden layer with a single unit makes the reconstruction constant (layer normalisation of one value), so nothing is ever learned
  (`fromNumpy_single_unit`).
* **C66**: the type of the target chosen at the first `fit` is kept: refitted with three classes, a classifier first fitted with two keeps
  the type binary, reports two columns and never predicts the third class (`clf_refit_binary`). Ordinal features give wrong predictions
  (see C64).
* **C67**: categorical features add entries at the end of `feature_importances_` and `coef_`, and with more than two classes the rows can
  have different lengths, which raises `ValueError` (`class_rows_aligned`). For an ordinal target with at least three classes
  `intercept_` raises `KeyError` (`fit_class_intercepts`).
* **C82**: predictions use the network before threshold and `enforce_dag`, so the graph of an estimator with these options does not
  explain its predictions. `standardize=True` without continuous columns raises `ValueError` (`standardizeStep`); for arrays of
  integers the standardised values are truncated (`basePredict`).
* **C68**: with Python's floats the last colour of a gradient can be one unit below the requested one, and even outside the range of the
  two colours, already for seven steps (`gradient_off`). A colour without transparency is read as fully transparent (`gradient_rgb`).
* **C84**: the wrappers accept distributions that are documented for other types only, e.g. `generate_continuous_data(..., distribution="logit")`
  (`continuous_accepts_logit`); with a kernel the argument `intercept` has no effect.
