# Formal model of option-pricer: design

Subject: the C++20 library in `/repo` (option-pricer). The source is read as text only; it is neither built nor run.
The model and the proofs are in Lean 4 (`/verif/lean`), using Mathlib for real analysis and linear algebra.

## 1. Layout

| directory | content |
|---|---|
| `Verif/Num/` | numbers: the interface `Fl`, its real instance, the IEEE-like type `Dbl R` |
| `Verif/Model/` | the model, one module per source area; every definition cites file and lines of `/repo` |
| `Verif/Spec/` | small specifications, written without using the model's functions |
| `Verif/Lemmas/` | helper lemmas |
| `Verif/Props/` | the property theorems (named `Cxx_...`), each followed by an `example` that meets its hypotheses |

## 2. How the code is modelled

**Numbers.** The numeric code is written once, generic in a type `F` with `+ - * / neg` and the class `Fl`
(literals, `exp`, `log`, `sqrt`, `fabs`, and the Boolean comparisons `< <= ==`). It is used at two instances:

* `ℝ`: exact arithmetic. Used for identities and inequalities that rounding would blur (put-call parity, Thomas
  algorithm, closed forms, stability).
* `Dbl R`: a number is NaN or an extended real; arithmetic is "compute exactly, then round with `R.rnd`", comparisons
  are those of IEEE 754 (every comparison with NaN is false). `R : Rounding` is an arbitrary monotone odd rounding
  that may overflow to infinity, so a theorem for all `R` covers binary64. The results of `exp`/`log`/`sqrt` are only
  assumed to have the sign and monotonicity a math library guarantees. A `Rounding` is a structure passed as an
  argument (no axiom), and concrete instances are given: `Rounding.exact` and `Rounding.binary64` (`Num/Binary64.lean`:
  round to nearest, ties to even, 53 bits, gradual underflow, overflow to infinity), for which error bounds are proved.

Not modelled in `Dbl`: signed zeros (one zero; `x/0` takes the sign of `x`), NaN payloads, exception flags, x87
excess precision, contraction to FMA.

**Outcomes.** `Res α = ok a | throw e | ub`. `throw` carries the exception class and message, `ub` is undefined
behaviour (out-of-bounds access, `back()` on an empty vector, signed overflow of a loop counter, ...). Code with
effects is a state transformer that returns a state *also when it throws*, so exception safety can be stated.

**State.** `MarketData` is a state machine: an arena of `StockData` objects (a `shared_ptr` is an index), the ticker
table, the rate, the list of weak observer references, the observer objects with their liveness, and a log of the
`update()` calls delivered. Histories are lists of operations; invariants are proved by induction over them.

**Randomness.** A generator is an arbitrary function from a distribution and a generator state to an outcome and a new
state; theorems hold for every such function. Probabilistic statements (risk neutrality, Brownian bridge) use
Mathlib's Gaussian measures on the draws.

**Linear algebra from Eigen** (LU, LDLT, SVD) is modelled by contracts: an arbitrary function that satisfies the
documented post-condition. The Thomas algorithm, which is in the repository, is modelled operation by operation.

## 3. Plan and result per property

`P` = proved as stated; `R` = the code violates the property: a refutation with a concrete witness (or a whole class of
witnesses) is proved as `..._fails`, and `..._partial` theorems say what does hold. The exact theorem names are in
`MANIFEST.json`.

| id | what is modelled | result and method |
|---|---|---|
| C01 | MarketData state machine | P: refinement to a function of the history, induction over the call list |
| C02 | StockData validation, setters | R: setters assign before validating, and NaN passes validation. Partial: invariant when no setter call throws and values are not NaN |
| C03 | same | R: a rejected setter leaves the bad value. Partial: addStock, getStockData, unknown tickers have no effect; rejected updates change only that field of that ticker, notify nobody |
| C04 | observer list, notification log | P: exact log delta |
| C05 | option creation/release | P: invariant by induction over histories |
| C06 | arena + handles | R: addStock on a known ticker replaces the object. Partial: holds while the ticker is not re-added; frozen data afterwards |
| C07 | ticker table | P: induction over histories |
| C08 | small-step interleaving semantics of getInstance | P: invariant over all schedules, any number of threads; progress |
| C09 | StockData::operator== | P on `Dbl` |
| C10 | PayoffVanilla | P: reals for parity, `Dbl R` for sign and monotonicity |
| C11 | PayoffDigital, PayoffDoubleDigital | P on `Dbl R` |
| C12 | constructors | P on `Dbl R` |
| C13 | operator==, compare, clone | P on `Dbl R` |
| C14 | operator() dispatch | P |
| C15 | ParameterObject | P: refinement to last write in history |
| C16 | nine factories, Option constructor | P: decision logic stated outright |
| C17 | error messages of the factories | R for the help text of the floating lookback and barrier factories; the reason, the exception type and the unchanged state are proved for all failures |
| C18 | Option::operator== | R: compares current stock data values, not the ticker or the option class. Partial: the relation it does compute |
| C19, C20 | barrier pricers | P |
| C21 | lookback pricers | P on `Dbl R` (needs infinities) |
| C22 | Asian pricers | P: AM-GM |
| C23 | the Monte Carlo loops | P, all N, in any arithmetic; exceptions of the path simulation reach the caller |
| C24 | estimators | P |
| C25 | LSMC backward induction | R: a date without in-the-money paths skips discounting. Partial: exact when each date has one |
| C26, C28 | LSMC | P |
| C27 | LSMC decision rule | R for whole runs (the same skipped date); each date, the selection of the paths and the shape of the regression are proved |
| C29 | MCSolver | P: induction over call list |
| C30 | builders | P, including the state after a failed setOption |
| C31 | builders | R: default model cached across setOption. Partial: first build after construction, histories with one ticker |
| C32 | six models | P in exact arithmetic; R in doubles (a price can underflow to 0), partial: never negative, in any rounding |
| C33 | GBM | P: induction on steps |
| C34 | GBM with Gaussian draws | P: law of the path, martingale, unbiased estimator, Black-Scholes formula as its expectation, variance |
| C35 | Heston, Bates | P on `Dbl R`, by an instrumented simulation that records the arguments of all square roots |
| C36 | Heston/Bates constructors | R for Heston (the moved-from parameter is tested, a given discretisation is ignored); Bates proved |
| C37 | jump models | R: T = 0, lambda <= 0, eta2 = 0 pass the constructor. Partial: exact conditions |
| C38 | Kou | R: missing else, an up jump is followed by a down jump. Partial: the path actually simulated |
| C39 | simulatePriceBackward with Gaussian draws | P: joint law of the whole price matrix equal for both methods |
| C40 | quasi generators | R in one detail (paths straddle points after a caught exception); refinement of the draws proved in full |
| C41 | pseudo generator | R: seed never reaches the engine. Partial: same stream for all seeds |
| C42 | models with quasi generators | P |
| C43 | inv_cdf | P: domain, symmetry, sign, strict monotonicity across both branches and the seam (rational bounds for log) |
| C44 | LinearInterpolation; `Props/InterpolationDouble` for the end values and the node values in doubles | P |
| C45 | QuadraticInterpolation incl. unsigned wrap | P; NaN makes the search endless |
| C46, C47 | ThomasAlgorithm | P: induction on size |
| C48 | basis functions | P |
| C49 | Laguerre | R: column 1 is x instead of 1-x |
| C50 | least squares over the bases | P under the SVD contract |
| C51 | Lasso | R: thresholded least squares is not the lasso minimiser. Partial: orthonormal columns; soft threshold properties |
| C52 | Ridge | P under the LDLT contract |
| C53 | grids, time loop | P on the reals. R in binary64: with maturity 1 and N = 11 every solver makes 11 steps; partial: N - 1 or N steps |
| C54 | explicit Euler | R for the boundary values (those of the previous time level); inner nodes proved |
| C55 | implicit Euler | P for every sound linear solver, with termination for the Thomas algorithm |
| C56 | Crank-Nicolson | R: boundary terms of the old level are dropped in the first and last row. Partial: what each step solves |
| C57 | Crank-Nicolson with LU | R: solve is called inside the row loop on a matrix with empty rows; a second solve() returns zeros |
| C58 | implicit Euler + Thomas | P: discrete maximum principle, M-matrix argument |
| C59 | explicit Euler | R for the solver's own check; partial: under non-negative weights |
| C60 | Black-Scholes boundaries | R: time direction, missing discounting, missing dividends. Partial: the others, against the asymptotics of the lognormal expectation |
| C61 | FDM caching | R: stale after market updates. Partial: idempotence, histories that keep the coefficients |
| C62 | FDM with tDom = 0 | R: returns zeros |
| C63 | all stock models with an ideal generator (measure on the generator states) | P: GBM, Heston. R: Merton, Bates, Kou, variance gamma; partial: their exact expectations and when they are risk neutral |
| C64 | distribution constructors and the laws they sample | P except: R for uniform (interval ignored) and for NaN |
| C65 | Monte Carlo pricers over all stock models, as random variables of the generator state | P (exact arithmetic, ideal generator; not the lookbacks) |
| C66 | Monte Carlo pricers in binary64 | P: error bound by induction over the paths, from the accuracy of one rounding |
| C67 | finite difference solvers and interpolation | P for Euler schemes: consistency by Taylor expansion, stability by the maximum principle, induction over the time levels; Crank-Nicolson: R (no convergence for nonzero boundary values), partial for zero boundary values |
| C68 | market data with observers that are arbitrary programs calling back, iterators with a change counter, stack depth | P for observers that only read; R: registration, option creation and destruction inside update(), exceptions, recursion; partial: executions in which all notifications complete, induction over the nesting depth |
| C69 | interleavings of API operations with the shared memory they read and write, happens-before (program order, mutex of `getInstance`, start, join) | P: fork/join with readers, values seen by readers, updates of different tickers (objects never change their ticker, by induction over the execution); R: option creation and destruction, `addStock`, `setR`, update against getter |
| C70 | laws of the pricers run on a perfect random source, all paths jointly | P: joint independence of the runs by induction over the number of paths, Hoeffding's inequality, confidence intervals |
| C71 | two runs of the same pricer on the same generator state, different contracts | P: inversion of runs (rate, paths, payments), relation on partial sums preserved by rounded addition, division and multiplication; linear inequalities over the reals |
| C72 | `Model/System`: programs over the whole system (market calls, generators, models, builders, pricers); spec: `data`, `rate` of the market calls, a system with one stock and one generator | P: monad morphism from the generator to the system (`Embeds`) through every pricer loop; C01 and C06 for the market part; witnesses with a constant generator |
| C73 | `Model/Session`: main.cpp for one option as one program over the system; spec: a perfect engine (law of one sample and of the next state), the contract of the parameters, Black-Scholes formulas | P: execution of the setup calls step by step (factory, builder and observer theorems), monad morphism from the engine to the generator to the system, then C70 and C34 |
| C74 | no new code: the sessions of C73; spec: closed formulas written with the normal distribution function | P: the logarithm of the geometric mean is a weighted sum of independent normals, its law is normal with the sum of squared weights, then the integral of the call |
| C75 | no new code: the sessions of C73 as functions of the number of paths; spec: almost sure convergence, limit of the probability of an error between a and b standard errors | P: the paths of one run are the first N of one independent sequence (C70), then Mathlib's strong law and central limit theorem; positive variance because a continuous payoff takes two values |
| C76 | `Model/Export`: the program as a transition system (formatted input with failure states, unsigned wrap around, a disk with limited room); spec: the list of rows | P: invariants of the two loops by induction on the remaining rows; for infinite runs a set of configurations closed under steps that contains no final one |
| C77 | `Model/Random` (buffers, refill), `Model/StockModel`, `Model/MonteCarlo`; spec: Weyl's uniform distribution by boxes, the path of a point | P: the generator serves the concatenated points (induction); weak convergence of the empirical measures (portmanteau, mapping theorem); existence of such points from the strong law of large numbers; counterexample by moving points number n^2 towards the boundary |
| C78 | `Model/MainProgram`: main.cpp:51-132 call by call on the system with an output list | P: execution of the set-up with an invariant (the stock data and rate are known), locality of calculatePrice, then C73, C70 and C77 |
| C79 | `Lemmas/PolyCheck` (sign of a polynomial on an interval by bisection, proved sound), `Lemmas/NormalCdf`, `Lemmas/QuantileCentral`, `Lemmas/QuantileTail`, `Lemmas/Hybrid` | P: the derivative of Phi(inv_cdf(u)) is exp of a function whose own derivative is rational up to a Taylor polynomial; bounds by certificates; then one factor of the product law replaced at a time |
| C80 | `Spec/LookbackSpec`, `Lemmas/Exact` (a program over the extended reals on finite data does what the program over the reals does), `Props/LookbackSession` | P: lock-step simulation of every path and of the pricer; then C70 |
| C81 | `Spec/PathErrorSpec`, `Lemmas/ForwardError` (forward error analysis: sum, product, square root), `Props/PathError` | P: errors of the logarithms of the prices, by induction over the dates; then C66 |
| C82 | `Spec/DoubleSessionSpec` (close engines, bounds), `Props/DoubleSession` | P: no path has an extreme draw or partial sum up to a union bound of Gaussian tails; then both programs in lock step, C81, and C70/C34 for the exact program |
| C83 | `Spec/FdmPriceSpec` (bounds), `Lemmas/Heat`, `Semigroup`, `Smoothing`, `FdmBarrier`, `FdmPrice`, `Props/FdmPrice` | P: the value of a smoothed payoff solves the equation (differentiation under the Gaussian integral, Stein's identity); discrete comparison principle with a barrier 1/(j+1) and x^2 that absorbs the wrong boundary values; induction over the time levels; interpolation near the spot |
| C84 | `Spec/FdmDigitalSpec` (bound), `Lemmas/DigitalValue`, `Props/FdmDigital` | P: smooth steps below and above the payoff; one-sided comparison principle with the barriers of C83; the values of the two steps differ by the probability of ending near the strike |
| C85 | `Spec/FdmDoubleSpec` (GridSizes, ModerateGrid, bound), `Lemmas/DoubleOps` (error calculus), `Lemmas/FdmRounding`, `Lemmas/FdmRoundingRun`, `Lemmas/InterpRounding`, `Lemmas/FdmRoundingPrice`, `Props/FdmDoublePrice`, `Spec/MaturitySpec`, `Lemmas/Theta`, `Props/MaturityPrices` | P: rounding error of one node; the step does not increase differences; induction over the time steps; interpolation on computed nodes; C83; derivative of the Black-Scholes formula in the maturity for the last step |
| C86 | `Spec/FdmFailureSpec` (which evaluations a scheme needs), `Lemmas/FdmFailure` (inversion of every loop), `Lemmas/FdmRetry` (runs from states that differ in scratch memory), `Lemmas/FdmMirror` (steps that fail do so whatever the prices are), `Props/FdmFailure` | P: inversion of normal and exceptional returns, induction over the time loop and over histories; R for one time step |
| C87 | `Props/FdmDegenerate` | R: explicit runs; the accumulated time stays below a power of two at most T/2 when the step is below half a unit in the last place |
| C88 | `Spec/PathDependentErrorSpec`, `Lemmas/PathDependentError` (one path), `Props/PathDependentError` (sessions) | P: C81_path for the prices; extremes are exact; forward error analysis of sums, logarithms and exponentials; C66 for the mean over the paths |
| C89 | `Spec/PathSessionSpec`, `Props/PathSession` | P: C88 for the rounding of a run whose draws are moderate; closeness of paths with close draws; the tail of the normal law for rare draws; Chebyshev and Hoeffding for the mean over the paths |
| C90 | `Spec/BarrierSessionSpec`, `Props/BarrierSession` | P: C88 for the rounding of a run that keeps clear of the jump; the normal density bounds the probability of coming near; Chebyshev and Hoeffding for the mean over the paths |
| C91 | `Spec/ThomasDoubleSpec`, `Lemmas/ThomasRounding`, `Props/ThomasDouble` | P: induction over the sweep with the invariant abs c <= 1 - L/(6U), abs d <= 2W(1 - abs c); then over the back substitution; dominance turns residuals into errors |
| C92 | `Spec/ImplicitDoubleSpec`, `Lemmas/ImplicitRounding`, `Lemmas/ImplicitRoundingRun`, `Lemmas/ImplicitRoundingPrice`, `Lemmas/ImplicitRoundingSizes`, `Props/ImplicitDoublePrice`, `Spec/MaturitySpec`, `Lemmas/Theta`, `Props/MaturityPrices` | P: rounding errors of the coefficients and of the Thomas algorithm (C91) bound the residuals; the maximum principle bounds the errors of one step; induction over the steps; interpolation; C83; derivative of the Black-Scholes formula in the maturity for the last step |
| C93 | `Spec/CNDoubleSpec`, `Lemmas/CNRounding`, `Lemmas/CNRoundingRun`, `Lemmas/CNRoundingSizes`, `Props/CNDoublePrice`, `Spec/MaturitySpec`, `Lemmas/Theta`, `Props/MaturityPrices` | P: the loop returns the last solve whatever the intermediate ones return; rounding errors of the coefficients, the right hand side and the Thomas algorithm (C91) bound the residuals; the explicit half is an average, the maximum principle bounds the errors of one step; induction over the steps; interpolation; C83; derivative of the Black-Scholes formula in the maturity for the last step |
| C94 | `Lemmas/QuantileRounding`, `Props/QuantileDouble` | P: forward error analysis of both branches (the denominator of the central one is at least 1/10, the tail polynomial has positive coefficients); arguments on the wrong side of the rounded bound are within 2^-52 of the right side; `1 - q` is exact for q > 1/2; C79; Phi has slope at most 1/2 |
| C95 | `Spec/QuasiDoubleSpec`, `Lemmas/Koksma`, `Props/QuasiDouble` | P: C94 for every coordinate; refill and emit serve the points in order (induction over dates and paths); the error analysis of C64-C66 with normal numbers up to 10 sqrt(dim); Koksma's inequality for decreasing functions from the layer-cake formula |
| C96 | `Spec/DigitalDoubleSpec`, `Props/DigitalDoublePrice`, `Props/DigitalMaturity` | P: the payoffs at the computed nodes are exactly 0 or 1 and right outside (X + K) / 2^49 of the strike; an exact run started from these payoffs lies between the runs for two smooth steps (C84); the rounding analysis of C85, C92 and C93 compares it with the run in doubles; Lipschitz bounds for the change with the maturity |
| C97 | `Spec/LevySpec`, `Lemmas/Convolution`, `Lemmas/GammaConvolution`, `Lemmas/LogSteps`, `Lemmas/Clipping`, `Props/ExactLaws` | P: one step multiplies the price by exp of an independent draw; induction over the path gives the law of a sum; normal, Poisson, gamma and compound laws are closed under convolution; the saturation of the counts is bounded in total variation with Markov's inequality |
| C98 | `Spec/MertonSpec`, `Props/MertonFormula` | P/F: C97 gives the law at maturity; condition on the number of jumps, each term is a Black-Scholes price; the counterexample compares an upper bound by the mean of K^2 / (4 X) with the lower bound by the forward |
| C99 | `Spec/JumpErrorSpec`, `Props/JumpPathError` | P: forward error of each exponent with an induction over the jumps; induction over the steps on the logarithm of the price |
| C100 | `Props/AcceptedModels` | F: infinity and NaN are followed through the constructor, the step and the payoff; forward error of the stored correction |
| C101 | `Props/JumpSession`, `Spec/JumpSessionSpec` | S: induction over the paths, per path error of the payoff (C88), mean and discount (C66), paths of C99 |
| C102 | `Props/Parity`, `Props/ParityJumps`, `Spec/ParitySpec` | S: expectation of an average of copies (C70), expected prices of C63, pathwise parity integrated |
| C103 | `Props/Orderings` | S: laws of C97, Jensen for a normal convolution factor; submartingale of the positive part (C63) |
| C104 | `Lemmas/Thinning`, `Props/Refinement` | S: the fine path on every m-th date has the law of the coarse path; pointwise comparison of the barrier payoffs |

## 4. Findings about the code

What the `_fails` theorems establish, in the order of the code base:

* `StockData` setters assign before they validate, so a rejected update stays; NaN passes every validation (C02, C03).
* `addStock` for a known ticker replaces the object, holders of the old handle never see later updates (C06).
* A stock model keeps its pointer when the ticker is added again, and a variance gamma model keeps the drift correction of the
  volatility at its construction: their later prices are not those of a model built now (C72).
* An observer that registers another one, creates an option or destroys one from inside `update()` invalidates the iterators
  of the running notification loop; an observer that throws keeps the later ones uninformed (C68).
* Only `getInstance` takes the mutex: two threads that create (or destroy) their own options race on the vector of observers,
  and `addStock` races with the lookup of any ticker (C69).
* `Option::operator==` compares values of the stock data, not the ticker, and ignores the class (C18).
* The help texts of the floating lookback and barrier factories name the wrong parameters (C17).
* LSMC does not discount over a date at which no path is in the money (C25, C27).
* Builders cache the default model of the first ticker (C31).
* `HestonModel` ignores the discretisation given to it (C36); jump models accept parameters with which every simulation
  throws (C37); an up jump of the Kou model is followed by a down jump (C38).
* In doubles a simulated price can underflow to 0 (C32).
* Kou's model accepts `eta1 = 1` and the variance gamma model parameters with a non-positive argument of the logarithm: every
  simulated price is then 0 or NaN, and no exception is thrown (C100).
* Merton and Bates have no compensator for the jumps in the drift, Kou one for other jumps than those simulated, variance
  gamma draws its clock with rate `nu` instead of scale `nu`: none of them is risk neutral (C63). A put worth at least 100
  in Merton's model is priced at most 60 on average (C98); the expected call and put prices of all four violate put-call parity (C102).
* The time loop of the finite difference solvers compares accumulated times: with maturity 1 and 11 time points it makes
  an extra step and returns the prices for maturity 1.1 (C53).
* `ContinuousUniformDistribution` ignores its bounds; all distributions accept NaN (C64).
* The seed of the pseudo random generator is stored and never used (C41); a quasi random path may straddle two points
  after an exception (C40).
* Laguerre column 1 is `x` (C49); the lasso regression is soft thresholding of the least squares solution (C51).
* Finite differences: boundary values at the wrong time level (C54), missing boundary terms (C56), so that Crank-Nicolson does
  not converge (C67), matrix solved while
  being assembled (C57), a stability check without relation to the equation (C59), boundary functions with reversed time
  and without discounting, those of ordinary calls and puts used for digital options (C60), stale prices (C61), zeros for maturity 0 (C62).
* A finite difference solver with one time step whose first call throws returns zeros when it is called again (C86).
* Finite difference grids are not checked: `J = 0` reads an empty vector, `N = 1` gives NaN at every inner node, and with
  `N = 0` the step number wraps around and `solve()` never returns (C87).
* A quasi random point with a coordinate 0 (or, after scaling, 1) makes every pricer throw (C77_throws); for unbounded payoffs
  uniform distribution of the points does not imply convergence of the prices (C77_call_fails).
* `generate_sobol` asks forever when its input ends or is not a number, writes forever when the answer is -1, reports success
  on a full disk, and empties the old file before it finds out that the dimension is not supported (C76).

## 5. Trusted base

* Lean 4.33.0 kernel; Mathlib as installed. No axioms are added. Every theorem named in `MANIFEST.json` depends at most on
  `propext`, `Classical.choice` and `Quot.sound` (checked with `#print axioms` for all of them before every commit); no
  `sorry`, no `native_decide`, no `bv_decide`.
* The hand translation from C++ to the model (line references in every definition).
* The specifications in `Verif/Spec` and the statements of the theorems.
* Contracts for third-party code, always hypotheses of the theorem and each shown satisfiable by a constructed instance:
  `LeastSquaresSolver` (Eigen JacobiSVD), `DefiniteSolver` (Eigen LDLT), `SoundSolver`, `DominantSolver` and
  `RejectsZeroRows` (Eigen LU), `RandomSource` (a generator with independent draws of the exact laws; instance `perfectGen`),
  `RandomEngine` (the same for the engine of a session, C73) and `NormalsClose` (an engine for doubles whose normal numbers
  are near those of a perfect one, C82).
  Everything else from Eigen, Boost, the C++ and the math library is either an arbitrary
  function or has the behaviour written in the model.

## 6. What is modelled and what is not

Modelled, function by function (`src/` and the corresponding headers):

| code | model |
|---|---|
| `market_data/*` | `Model/StockData`, `Model/Market`, `Model/World` (histories), `Model/Reentrant` (observers calling back), `Model/Threads` (accesses to shared memory), `Model/Singleton` (getInstance with threads) |
| `payoff/*` | `Model/Payoff` |
| `option/*` | `Model/ParameterObject`, `Model/OptionFactory` |
| `solver/monte_carlo/mc_*.cpp` | `Model/MonteCarlo`, `Model/American`, `Model/Pricer` |
| `solver/monte_carlo/builder/*`, `mc_solver.cpp` | `Model/Pricer`, `Model/System` (whole programs) |
| `model/*`, `model/discretization/*` | `Model/StockModel` |
| `random/distribution/*`, `random/number_generator/*` | `Model/Random` |
| `numerical_analysis/interpolation/*` | `Model/Interpolation` |
| `numerical_analysis/linear_algebra/*` | `Model/LinearAlgebra` (the two LU classes call Eigen: arbitrary functions) |
| `numerical_analysis/basis_function/*`, `regression/*` | `Model/Regression` |
| `solver/finite_difference_method/*/one_factor/*` | `Model/Fdm`, `Model/FdmWorld` |
| `main.cpp` | `Model/MainProgram` (the whole program), `Model/Session` (one option and one pricer at a time) |
| `examples/generate_sobol.cpp` | `Model/Export` (a transition system; numbers are not formatted) |

Not modelled:

* The formatting of numbers on the console and the commented parts of `main.cpp`, the notebooks in `examples/`, `tests/`; the multi-factor FDM files and the binomial tree, which are empty.
* Memory exhaustion, static destruction order, output to `std::cerr` (of the CFL warning only the condition, `Fdm.warns`).
* What a program does after a data race: C69 says which executions have one; the behaviour is then undefined. Race-free
  executions are taken to be interleavings of whole operations, as the C++ memory model guarantees. Threads inside user-defined
  `update()` functions are not combined with C68.
* The bit streams of mt19937, Sobol and Faure: arbitrary functions. `std::random_device` is an argument.
* Null pointers passed for required collaborators (except where a null argument has a documented meaning, as for
  discretisation, interpolation and matrix solver), and other implementations of `IMarketData`.
* In `Dbl`: see section 2.

Simplified (also noted at the definitions):

* Options, models and pricers are immutable values, generators live in an arena; a `shared_ptr` is the value or the index.
* The `std::` distribution inside a distribution object is constructed before the range check in the C++ code; its own
  precondition is ignored. The saved second variate of `std::normal_distribution` is part of the generator state
  and is dropped by `Gen.newDist`.
* Eigen sums are taken from left to right (regressions, American pricer); a size mismatch or the mean of an empty vector is
  undefined behaviour.
* Boost may have written a part of the point when generation throws; the model leaves the point unchanged.
* An endless loop without side effects is undefined behaviour (`findInterval`: fuel 2^64+1, more than its states; the time
  loop of the FDM solver: fuel, theorems speak about all sufficiently large values).
* A matrix is its size and a coefficient function; the arrays of the Thomas algorithm are functions; more than 2^31+1 rows,
  or more basis functions than `int` can count (2^31-1, resp. 2^30+1), is undefined behaviour.
* The uninitialised memory of `b` in the FDM solvers is an arbitrary function `junk`.
* In statements over the reals with `T/steps`, Lean's `x/0 = 0` is excluded by hypotheses where it would matter.

## 7. Tests of the theorems

`seeded/LOG.jsonl` records edits of the model that imitate realistic bugs, made in a scratch copy, with the theorems that then
failed to build. Where a theorem survived although its claim had become false, it was tightened (recorded in the log).
