{
 "claims": [
  {
   "property": "C01",
   "status": "proved",
   "theorems": [
    "Verif.Props.C01_lastWriteWins",
    "Verif.Props.C01_otherTickers"
   ],
   "note": "For every history of API calls, reads equal the last accepted writes (arbitrary number type)."
  },
  {
   "property": "C02",
   "status": "partial",
   "theorems": [
    "Verif.Props.C02_fails_rejectedUpdate",
    "Verif.Props.C02_fails_nan",
    "Verif.Props.C02_validServed_partial",
    "Verif.Props.C02_validAfterSuccess_partial"
   ],
   "note": "Refuted as stated: a rejected update leaves invalid data behind, and NaN is accepted (C02_fails_*). Proved without rejected updates and without NaN arguments."
  },
  {
   "property": "C03",
   "status": "partial",
   "theorems": [
    "Verif.Props.C03_fails",
    "Verif.Props.C03_throwingCall_partial"
   ],
   "note": "Refuted as stated: a rejected update of a known ticker changes the stored field (C03_fails). Proved: a throwing call changes nothing else."
  },
  {
   "property": "C04",
   "status": "proved",
   "theorems": [
    "Verif.Props.C04_update",
    "Verif.Props.C04_setR",
    "Verif.Props.C04_notify",
    "Verif.Props.C04_noOther"
   ],
   "note": "Notification log equals the live registrations in order, for every history."
  },
  {
   "property": "C05",
   "status": "proved",
   "theorems": [
    "Verif.Props.C05_exactRegistrations",
    "Verif.Props.C05_removeKeepsLive",
    "Verif.Props.C05_noNotificationAfterRelease"
   ],
   "note": "Registrations, cleanup and no delivery after release, for every history."
  },
  {
   "property": "C06",
   "status": "partial",
   "theorems": [
    "Verif.Props.C06_fails",
    "Verif.Props.C06_handleCurrent_partial",
    "Verif.Props.C06_staleHandleFrozen"
   ],
   "note": "Refuted as stated: re-adding a ticker leaves old handles stale (C06_fails). Proved while the ticker is not added again; the stale handle is frozen."
  },
  {
   "property": "C07",
   "status": "proved",
   "theorems": [
    "Verif.Props.C07_getStockData",
    "Verif.Props.C07_update",
    "Verif.Props.C07_staysKnown"
   ],
   "note": "For every history of API calls."
  },
  {
   "property": "C08",
   "status": "proved",
   "theorems": [
    "Verif.Singleton.C08_oneInstance",
    "Verif.Singleton.C08_throwsOnlyOnBadAlloc",
    "Verif.Singleton.C08_callsCanComplete"
   ],
   "note": "Small-step model of getInstance with arbitrarily many threads and any schedule; double-checked locking with the atomic pointer."
  },
  {
   "property": "C09",
   "status": "proved",
   "theorems": [
    "Verif.Props.C09_fieldEquality",
    "Verif.Props.C09_equivalence"
   ],
   "note": "All doubles including NaN; reflexivity characterised exactly."
  },
  {
   "property": "C10",
   "status": "proved",
   "theorems": [
    "Verif.Props.C10_positivePart",
    "Verif.Props.C10_monotoneLipschitz",
    "Verif.Props.C10_rounded_nonneg",
    "Verif.Props.C10_rounded_monotone"
   ],
   "note": "Exact values, parity and Lipschitz bounds over the reals; sign and monotonicity in doubles with any rounding, infinite spots included."
  },
  {
   "property": "C11",
   "status": "proved",
   "theorems": [
    "Verif.Props.C11_digital",
    "Verif.Props.C11_doubleDigital",
    "Verif.Props.C11_digitalParity"
   ],
   "note": "All doubles including NaN and infinities, any rounding."
  },
  {
   "property": "C12",
   "status": "proved",
   "theorems": [
    "Verif.Props.C12_singleStrike",
    "Verif.Props.C12_doubleStrike",
    "Verif.Props.C12_lookback"
   ],
   "note": "All doubles and all enum values; NaN strikes are accepted."
  },
  {
   "property": "C13",
   "status": "proved",
   "theorems": [
    "Verif.Props.C13_equivalence",
    "Verif.Props.C13_equalPayoffsPayTheSame",
    "Verif.Props.C13_clone",
    "Verif.Props.C13_distinguishes"
   ],
   "note": "All payoffs and inputs; equality is reflexive exactly without NaN strikes."
  },
  {
   "property": "C14",
   "status": "proved",
   "theorems": [
    "Verif.Props.C14_arity"
   ],
   "note": "Any arithmetic, all payoffs and inputs."
  },
  {
   "property": "C15",
   "status": "proved",
   "theorems": [
    "Verif.Props.C15_typedMap",
    "Verif.Props.C15_has",
    "Verif.Props.C15_setGet"
   ],
   "note": "Every sequence of setParameter calls, all four value types used by the library."
  },
  {
   "property": "C16",
   "status": "proved",
   "theorems": [
    "Verif.Props.C16_successIff",
    "Verif.Props.C16_result",
    "Verif.Props.C16_unique"
   ],
   "note": "Every factory, parameter history and market state, whatever order the compiler evaluates constructor arguments in."
  },
  {
   "property": "C17",
   "status": "partial",
   "theorems": [
    "Verif.Props.C17_failure_partial",
    "Verif.Props.C17_reasonsAreGenuine",
    "Verif.Props.C17_helpText_partial",
    "Verif.Props.C17_helpText_fails"
   ],
   "note": "Reason, exception type and unchanged state proved for all failures; the help text is refuted for floating lookback and barrier factories (C17_helpText_fails)."
  },
  {
   "property": "C18",
   "status": "partial",
   "theorems": [
    "Verif.Props.C18_fails_underlying",
    "Verif.Props.C18_fails_class",
    "Verif.Props.C18_equal_partial",
    "Verif.Props.C18_equivalence_partial"
   ],
   "note": "Refuted: options on different tickers with equal data, or of different classes, compare equal. The relation that == really computes is characterised."
  },
  {
   "property": "C19",
   "status": "proved",
   "theorems": [
    "Verif.C19_exactlyOnePays",
    "Verif.C19_parity"
   ],
   "note": "Path by path for all doubles; the equality of prices in exact arithmetic (the rounding error in doubles is bounded in C88)."
  },
  {
   "property": "C20",
   "status": "proved",
   "theorems": [
    "Verif.C20_knockIn",
    "Verif.C20_knockOut"
   ],
   "note": "Any arithmetic, NaN and infinities included; any path source."
  },
  {
   "property": "C21",
   "status": "proved",
   "theorems": [
    "Verif.C21_fixedStrike",
    "Verif.C21_floatingStrike",
    "Verif.C21_fixedStrike_dominates",
    "Verif.C21_floatingStrike_dominates",
    "Verif.C21_exactValues"
   ],
   "note": "Rounded arithmetic for all finite paths; the values as real numbers in exact arithmetic."
  },
  {
   "property": "C22",
   "status": "proved",
   "theorems": [
    "Verif.C22_arithmetic",
    "Verif.C22_geometric",
    "Verif.C22_ordering",
    "Verif.C22_meansBetween"
   ],
   "note": "Exact arithmetic, any path source with positive prices (the rounding error in doubles is bounded in C88)."
  },
  {
   "property": "C23",
   "status": "proved",
   "theorems": [
    "Verif.C23_singlePath",
    "Verif.C23_singlePath_mean",
    "Verif.C23_barrier_mean",
    "Verif.C23_noPaths",
    "Verif.C23_tooManyPaths",
    "Verif.C23_exceptionsPropagate",
    "Verif.C23_asian",
    "Verif.C23_pathExceptions"
   ],
   "note": "Any arithmetic and any path source; exceptions of a path propagate. The Asian loops have an unsigned index and no upper limit."
  },
  {
   "property": "C24",
   "status": "proved",
   "theorems": [
    "Verif.C24_putCallParity",
    "Verif.C24_bounds",
    "Verif.C24_monotoneInStrike",
    "Verif.C24_neverNegative"
   ],
   "note": "Parity, bounds and monotonicity in exact arithmetic; the sign in doubles with any rounding, NaN and infinities included."
  },
  {
   "property": "C25",
   "status": "partial",
   "theorems": [
    "Verif.C25_characterisation_partial",
    "Verif.C25_mean_partial",
    "Verif.C25_zeroRate_partial",
    "Verif.C25_fails"
   ],
   "note": "Refuted: when no path is in the money at a date the code skips discounting over it (C25_fails). Exact characterisation for all paths, and the claim itself when each date has an in-the-money path or the rate is zero."
  },
  {
   "property": "C26",
   "status": "proved",
   "theorems": [
    "Verif.C26_bounds",
    "Verif.C26_put",
    "Verif.C26_notNegative"
   ],
   "note": "Bounds in exact arithmetic for every strategy; the sign in doubles with any rounding."
  },
  {
   "property": "C27",
   "status": "partial",
   "theorems": [
    "Verif.C27_oneDate",
    "Verif.C27_returns",
    "Verif.C27_simulated",
    "Verif.C27_run_partial",
    "Verif.C27_run_allActive_partial",
    "Verif.C27_fails"
   ],
   "note": "The exercise rule, the selection of paths and the shape of the targets hold at every date, in any arithmetic, for both methods, with arbitrary basis and regression; the targets are wrong after a date without in-the-money paths (C27_fails). Exactly least squares Monte Carlo when every date has one."
  },
  {
   "property": "C28",
   "status": "proved",
   "theorems": [
    "Verif.C28_method",
    "Verif.C28_neverUnsupported"
   ],
   "note": "For every model kind, generator and state; strategies and quasi sequences are arbitrary."
  },
  {
   "property": "C29",
   "status": "proved",
   "theorems": [
    "Verif.C29_solve",
    "Verif.C29_total"
   ],
   "note": "For every history of solver calls with arbitrary pricers."
  },
  {
   "property": "C30",
   "status": "proved",
   "theorems": [
    "Verif.C30_setOption",
    "Verif.C30_build",
    "Verif.C30_family",
    "Verif.C30_rejectedForgets"
   ],
   "note": "For every builder class and every history of calls, caught exceptions included."
  },
  {
   "property": "C31",
   "status": "partial",
   "theorems": [
    "Verif.C31_firstBuild_partial",
    "Verif.C31_oneTicker_partial",
    "Verif.C31_fails"
   ],
   "note": "Refuted: the default model is cached, so a builder reused for another ticker simulates the old one (C31_fails). Proved for a builder without a model and for histories with one ticker."
  },
  {
   "property": "C32",
   "status": "partial",
   "theorems": [
    "Verif.C32_length",
    "Verif.C32_maturity",
    "Verif.C32_getSteps",
    "Verif.C32_positive",
    "Verif.C32_scaling",
    "Verif.C32_double_partial",
    "Verif.C32_double_fails"
   ],
   "note": "Lengths and maturity price in any arithmetic; positivity and scaling in exact arithmetic; all six models, all draws. In doubles no price is ever negative (C32_double_partial, any rounding, NaN and infinities included) but prices can underflow to 0 (C32_double_fails, binary64)."
  },
  {
   "property": "C33",
   "status": "proved",
   "theorems": [
    "Verif.C33_closedForm",
    "Verif.C33_zeroVolatility",
    "Verif.C33_current"
   ],
   "note": "Exact characterisation of GBM paths in exact arithmetic, for arbitrary generators; also for model objects reading the market at the time of the call."
  },
  {
   "property": "C34",
   "status": "proved",
   "theorems": [
    "Verif.C34_riskNeutral",
    "Verif.C34_unbiased",
    "Verif.C34_forward",
    "Verif.C34_blackScholes",
    "Verif.C34_error"
   ],
   "note": "Exact arithmetic, draws iid standard normal on any probability space. Law of the log-return, expectation and martingale property of the simulated path; the single path estimator is unbiased with variance 1/N, and its expectation for calls and puts is the Black-Scholes formula."
  },
  {
   "property": "C35",
   "status": "proved",
   "theorems": [
    "Verif.C35_hestonStep",
    "Verif.C35_batesStep",
    "Verif.C35_path",
    "Verif.C35_sameHeston",
    "Verif.C35_sameBates"
   ],
   "note": "In double arithmetic with arbitrary rounding: an instrumented simulation, proved equal to the plain one, records every square root argument."
  },
  {
   "property": "C36",
   "status": "partial",
   "theorems": [
    "Verif.C36_bates",
    "Verif.C36_batesDefault",
    "Verif.C36_heston_partial",
    "Verif.C36_heston_fails"
   ],
   "note": "Refuted for Heston: the constructor tests the moved-from parameter, so Euler is always used (C36_heston_fails). Proved for Bates with arbitrary discretisations and for Heston with the default."
  },
  {
   "property": "C37",
   "status": "partial",
   "theorems": [
    "Verif.C37_partial",
    "Verif.C37_fails"
   ],
   "note": "Refuted: intensity, maturity 0 and eta2 = 0 are only rejected when simulating (C37_fails). Proved: the exact condition under which a constructed model simulates, and invalid_argument otherwise."
  },
  {
   "property": "C38",
   "status": "partial",
   "theorems": [
    "Verif.C38_partial",
    "Verif.C38_noUp_partial",
    "Verif.C38_fails"
   ],
   "note": "Refuted: an up jump is followed by a down jump (C38_fails). Proved: exact characterisation of the simulated Kou paths, and the claim for p = 0."
  },
  {
   "property": "C39",
   "status": "proved",
   "theorems": [
    "Verif.C39_law",
    "Verif.C39_paths",
    "Verif.C39_sameLaw"
   ],
   "note": "Exact arithmetic. One step: marginal and joint law of the bridge. Whole runs: the price matrix of the American pricer consists of independent GBM paths with either method, and its joint law is the same for both."
  },
  {
   "property": "C40",
   "status": "partial",
   "theorems": [
    "Verif.C40_draws",
    "Verif.C40_gbmPath_partial",
    "Verif.C40_fails"
   ],
   "note": "The refinement of the draws is proved for all sequences, dimensions and histories with caught exceptions. That GBM path i is a function of point i is proved as long as no simulation throws; after a caught exception paths straddle points (C40_fails)."
  },
  {
   "property": "C41",
   "status": "partial",
   "theorems": [
    "Verif.C41_fails",
    "Verif.C41_partial"
   ],
   "note": "Refuted: the seed never reaches the engine, all generators give the same stream (C41_fails). Proved: the stream is determined and every draw returns."
  },
  {
   "property": "C42",
   "status": "proved",
   "theorems": [
    "Verif.C42_neverReturns",
    "Verif.C42_throws"
   ],
   "note": "For all parameters and states; that the outcome is a throw (not undefined behaviour) for sequences whose points have the declared dimension."
  },
  {
   "property": "C43",
   "status": "proved",
   "theorems": [
    "Verif.C43_domain",
    "Verif.C43_quantile",
    "Verif.C43_nan"
   ],
   "note": "Domain in any arithmetic; symmetry, sign, strict monotonicity and unboundedness of Moro's approximation in exact arithmetic over the whole of (0,1), both branches; NaN is returned for NaN."
  },
  {
   "property": "C44",
   "status": "proved",
   "theorems": [
    "Verif.C44_returns",
    "Verif.C44_unique",
    "Verif.C44_nodes",
    "Verif.C44_between",
    "Verif.C44_affine",
    "Verif.C44_monotone",
    "Verif.C44_double",
    "Verif.C44_doubleClamps",
    "Verif.C44_doubleNodes"
   ],
   "note": "All grids, data and arguments in exact arithmetic; in double arithmetic (any rounding) the interpolator returns, with the clamped values outside the grid, and with the node values at the nodes if the differences to the next node neither overflow nor vanish (C44_doubleClamps, C44_doubleNodes)."
  },
  {
   "property": "C45",
   "status": "proved",
   "theorems": [
    "Verif.C45_nodes",
    "Verif.C45_returns",
    "Verif.C45_quadratic",
    "Verif.C45_double",
    "Verif.C45_nan"
   ],
   "note": "Grids up to 2^32 nodes; a NaN argument never returns (undefined behaviour, C45_nan)."
  },
  {
   "property": "C46",
   "status": "proved",
   "theorems": [
    "Verif.C46_throws",
    "Verif.C46_solves",
    "Verif.C46_zeroPivot"
   ],
   "note": "In exact arithmetic, sizes up to 2^31 rows. A nonsingular matrix may have a zero pivot; then NaN is returned without an error (C46_zeroPivot)."
  },
  {
   "property": "C47",
   "status": "proved",
   "theorems": [
    "Verif.C47_dominant"
   ],
   "note": "In exact arithmetic."
  },
  {
   "property": "C48",
   "status": "proved",
   "theorems": [
    "Verif.C48_shape",
    "Verif.C48_polynomials",
    "Verif.C48_monomial",
    "Verif.C48_chebyshev",
    "Verif.C48_legendre",
    "Verif.C48_span"
   ],
   "note": "Shape in any arithmetic; polynomials in exact arithmetic. The Legendre columns are identified by degree, normalisation and orthogonality. Beyond the range of int (2^31-1 resp. 2^30+1 basis functions) the behaviour is undefined."
  },
  {
   "property": "C49",
   "status": "partial",
   "theorems": [
    "Verif.C49_fails",
    "Verif.C49_partial"
   ],
   "note": "Refuted: column 1 is x instead of 1 - x, and no column from the second on is a Laguerre polynomial. Proved: first column and span."
  },
  {
   "property": "C50",
   "status": "proved",
   "theorems": [
    "Verif.C50_fit",
    "Verif.C50_unique",
    "Verif.C50_fitted",
    "Verif.C50_price",
    "Verif.C50_fits"
   ],
   "note": "Given that Eigen's SVD returns a least squares solution (contract, shown satisfiable). Proved up to the price of the whole American pricer."
  },
  {
   "property": "C51",
   "status": "partial",
   "theorems": [
    "Verif.C51_threshold",
    "Verif.C51_fails",
    "Verif.C51_partial"
   ],
   "note": "Refuted for general matrices. Proved: orthonormal columns or lambda = 0; the facts about the soft threshold hold in general. Given the SVD contract."
  },
  {
   "property": "C52",
   "status": "proved",
   "theorems": [
    "Verif.C52_constructor",
    "Verif.C52_minimises",
    "Verif.C52_fits"
   ],
   "note": "Given that Eigen's LDLT solves positive definite systems (contract, shown satisfiable). Constructors in any arithmetic."
  },
  {
   "property": "C53",
   "status": "partial",
   "theorems": [
    "Verif.C53_double_partial",
    "Verif.C53_double_fails",
    "Verif.C53_grid",
    "Verif.C53_steps",
    "Verif.C53_returns"
   ],
   "note": "Exact arithmetic: as stated, for all PDEs, schemes and linear solvers. Binary64 (up to 2^25 time points): N-1 or N steps (C53_double_partial), and refuted for maturity 1 with N = 11: an 11th step is made and the prices returned are those at time 1.1 (C53_double_fails)."
  },
  {
   "property": "C54",
   "status": "partial",
   "theorems": [
    "Verif.C54_partial",
    "Verif.C54_fails"
   ],
   "note": "Exact arithmetic. The scheme at the inner nodes is proved for all PDEs and grids; the boundary values written are those of the previous time level (C54_fails)."
  },
  {
   "property": "C55",
   "status": "proved",
   "theorems": [
    "Verif.C55_scheme",
    "Verif.C55_thomas"
   ],
   "note": "Exact arithmetic. For every sound linear solver; and with the Thomas algorithm solve() is shown to return, where diffusion dominates."
  },
  {
   "property": "C56",
   "status": "partial",
   "theorems": [
    "Verif.C56_partial",
    "Verif.C56_anySolver_partial",
    "Verif.C56_fails"
   ],
   "note": "Exact arithmetic. Refuted: the old boundary values are left out of the equations next to the boundary (C56_fails). Proved: what the step does solve."
  },
  {
   "property": "C57",
   "status": "partial",
   "theorems": [
    "Verif.C57_fails",
    "Verif.C57_retry_fails",
    "Verif.C57_partial"
   ],
   "note": "Refuted: the matrix is solved inside the assembly loop, while later rows are still zero, and the LU solver rejects it (C57_fails); with one time step a second solve() returns zeros silently (C57_retry_fails). Given the contract that the LU decomposition reports matrices with a zero row."
  },
  {
   "property": "C58",
   "status": "proved",
   "theorems": [
    "Verif.C58_bounds",
    "Verif.C58_call",
    "Verif.C58_put",
    "Verif.C58_noZeroDivision"
   ],
   "note": "Exact arithmetic, Thomas algorithm, all grids with at least three nodes and every step size; the whole solve(), including that it returns."
  },
  {
   "property": "C59",
   "status": "partial",
   "theorems": [
    "Verif.C59_partial",
    "Verif.C59_fails"
   ],
   "note": "Exact arithmetic. Proved: positivity and bounds when the three stencil weights are non-negative. Refuted: the stability check of the solver (dt/dx^2 < 1/2) does not imply this (C59_fails)."
  },
  {
   "property": "C60",
   "status": "partial",
   "theorems": [
    "Verif.C60_callLeft_partial",
    "Verif.C60_put_partial",
    "Verif.C60_noRates_partial",
    "Verif.C60_callStart_fails",
    "Verif.C60_call_fails",
    "Verif.C60_put_fails",
    "Verif.C60_dividend_fails",
    "Verif.C60_digitalPut_fails",
    "Verif.C60_digitalCall_fails"
   ],
   "note": "Exact arithmetic; the option value is the discounted expectation of the payoff under the lognormal law. Refuted: the call boundary discounts over T - t although t is the time to maturity, the put boundary is not discounted, dividends are ignored, digital options get the boundary values of ordinary ones. Proved: the other boundary values, and all of them without rates."
  },
  {
   "property": "C61",
   "status": "partial",
   "theorems": [
    "Verif.C61_idempotent",
    "Verif.C61_partial",
    "Verif.C61_stale_fails",
    "Verif.C61_fails"
   ],
   "note": "In any arithmetic. Idempotence in full. Refuted: changes of volatility, rate or dividends after the first call are ignored (C61_fails, C61_stale_fails). Proved: histories that change anything else, the spot price included."
  },
  {
   "property": "C62",
   "status": "partial",
   "theorems": [
    "Verif.C62_fails",
    "Verif.C62_partial"
   ],
   "note": "Refuted: newPrices is never filled when there is no time step, zeros are returned (C62_fails)."
  },
  {
   "property": "C63",
   "status": "partial",
   "theorems": [
    "Verif.C63_gbm",
    "Verif.C63_heston",
    "Verif.C63_merton_partial",
    "Verif.C63_merton_fails",
    "Verif.C63_bates_partial",
    "Verif.C63_bates_fails",
    "Verif.C63_kou_partial",
    "Verif.C63_kou_fails",
    "Verif.C63_varianceGamma_partial",
    "Verif.C63_varianceGamma_fails"
   ],
   "note": "Exact arithmetic; generator idealised (RandomSource), such a generator is constructed (perfectGen). Proved: GBM and every constructible Heston model, martingale included. Merton, Bates, Kou and variance gamma: exact expected prices and the exact condition for risk neutrality (_partial); refuted for all other parameters (_fails): no jump compensator (Merton, Bates), compensator for other jumps (Kou), gamma clock with rate instead of scale nu (variance gamma)."
  },
  {
   "property": "C64",
   "status": "partial",
   "theorems": [
    "Verif.C64_standardNormal",
    "Verif.C64_normal",
    "Verif.C64_poisson",
    "Verif.C64_exponential",
    "Verif.C64_gamma",
    "Verif.C64_uniform_partial",
    "Verif.C64_uniform_fails",
    "Verif.C64_double",
    "Verif.C64_nan_fails"
   ],
   "note": "Laws in exact arithmetic for a generator that samples the std distributions perfectly; validation also for doubles of any rounding. Refuted: the uniform distribution ignores its interval (C64_uniform_fails), NaN is accepted (C64_nan_fails)."
  },
  {
   "property": "C65",
   "status": "proved",
   "theorems": [
    "Verif.C65_singlePath",
    "Verif.C65_arithmeticAsian",
    "Verif.C65_geometricAsian",
    "Verif.C65_barrier",
    "Verif.C65_error",
    "Verif.C65_path"
   ],
   "note": "Exact arithmetic; generator idealised (RandomSource, realised by perfectGen). All six stock models; single path, both Asians, both barriers. The lookback pricers are not covered (their model needs infinities, C18)."
  },
  {
   "property": "C66",
   "status": "proved",
   "theorems": [
    "Verif.C66_singlePath",
    "Verif.C66_asian",
    "Verif.C66_barrier",
    "Verif.C66_lookback"
   ],
   "note": "IEEE binary64, round to nearest even, with gradual underflow and overflow. exp is assumed correctly rounded (as in the whole Dbl model)."
  },
  {
   "property": "C67",
   "status": "partial",
   "theorems": [
    "Verif.C67_implicit",
    "Verif.C67_anySolver",
    "Verif.C67_explicit",
    "Verif.C67_price",
    "Verif.C67_crankNicolson_partial",
    "Verif.C67_crankNicolson_fails",
    "Verif.C67_constant"
   ],
   "note": "Exact arithmetic. Implicit Euler with the Thomas algorithm (and any sound solver) and explicit Euler with non-negative weights: error bounds with explicit constants, up to the price interpolated at the spot. Crank-Nicolson: second order if all boundary values are 0 (_partial); with boundary values 1 it is off by at least 1/7 on every grid, however fine (_fails). The payoffs of calls and puts have a kink, so for them the smoothness hypothesis holds only away from maturity."
  },
  {
   "property": "C68",
   "status": "partial",
   "theorems": [
    "Verif.Props.C68_callbacks_partial",
    "Verif.Props.C68_readers",
    "Verif.Props.C68_register_fails",
    "Verif.Props.C68_createOption_fails",
    "Verif.Props.C68_release_fails",
    "Verif.Props.C68_throwing_fails",
    "Verif.Props.C68_recursion_fails"
   ],
   "note": "Any arithmetic. Observers are arbitrary programs over the API. Proved: observers that only read, and all executions whose calls complete their notifications. Refuted: registering an observer, creating an option or letting go of the last reference to an option from inside update() is undefined behaviour (iterators into a changed vector); an exception from one observer leaves the later ones with old data; setting the own price overflows the stack even if the price does not change."
  },
  {
   "property": "C69",
   "status": "partial",
   "theorems": [
    "Verif.Props.C69_ordered",
    "Verif.Props.C69_forkJoin",
    "Verif.Props.C69_values",
    "Verif.Props.C69_tickers",
    "Verif.Props.C69_create_fails",
    "Verif.Props.C69_release_fails",
    "Verif.Props.C69_update_fails",
    "Verif.Props.C69_addStock_fails",
    "Verif.Props.C69_setR_fails"
   ],
   "note": "Any arithmetic. Interleavings of operations with their accesses to shared memory; happens-before from program order, the mutex of getInstance, thread start and join. Proved: fork/join reading, stability of the values read, updates of different tickers, and race freedom whenever all writers are ordered. Refuted (the singleton locks only getInstance): creating options in two threads, destroying options in two threads, updating a price that another thread reads (even an update that is refused), adding a stock during any lookup, setting the rate while it is read."
  },
  {
   "property": "C70",
   "status": "proved",
   "theorems": [
    "Verif.C70_singlePath",
    "Verif.C70_asian",
    "Verif.C70_barrier",
    "Verif.C70_hoeffding",
    "Verif.C70_confidence",
    "Verif.C70_estimator",
    "Verif.C70_put"
   ],
   "note": "Exact arithmetic, any generator that is a perfect random source (one is constructed). All models; the single path, Asian and barrier pricers (int path counters up to INT_MAX). Joint independence of all paths by induction, then Hoeffding. Lookback and American pricers are not covered."
  },
  {
   "property": "C71",
   "status": "proved",
   "theorems": [
    "Verif.C71_singlePath",
    "Verif.C71_asian",
    "Verif.C71_barrier",
    "Verif.C71_lookback",
    "Verif.C71_knockOut",
    "Verif.C71_knockIn",
    "Verif.C71_callSpread",
    "Verif.C71_putSpread",
    "Verif.C71_convex"
   ],
   "note": "Doubles with any monotone rounding; the conclusion is that the C++ comparison dominating < dominated is false, which also covers NaN prices. Spreads and convexity over the reals, for the single path, Asian and barrier pricers. No assumption on the path source. The American pricer is not covered (regression is not monotone)."
  },
  {
   "property": "C72",
   "status": "partial",
   "theorems": [
    "Verif.C72_market",
    "Verif.C72_generators",
    "Verif.C72_local",
    "Verif.C72_current_partial",
    "Verif.C72_frozen",
    "Verif.C72_readded_fails",
    "Verif.C72_omega_fails"
   ],
   "note": "Market data and other generators untouched by every program (C72_market, C72_generators); locality for all pricers (C72_local); prices from the values written last unless the ticker is added again or a variance gamma model survives a change of volatility (C72_current_partial); both exceptions refuted by witnesses (C72_readded_fails, C72_omega_fails), extent of the first in C72_frozen."
  },
  {
   "property": "C73",
   "status": "proved",
   "theorems": [
    "Verif.C73_session",
    "Verif.C73_reproducible",
    "Verif.C73_path",
    "Verif.C73_singlePath",
    "Verif.C73_arithmeticAsian",
    "Verif.C73_geometricAsian",
    "Verif.C73_knockIn",
    "Verif.C73_knockOut",
    "Verif.C73_call",
    "Verif.C73_put"
   ],
   "note": "The session of main.cpp:82-132 for one option, end to end: the price is that of a system with nothing but the session's own data (C73_session), and is reproducible (C73_reproducible); with a perfect engine discounted averages of independent payoffs for every model and class of pricer except American and lookback options (C73_path, C73_singlePath, C73_arithmeticAsian, C73_geometricAsian, C73_knockIn, C73_knockOut); Black-Scholes prices for European calls and puts (C73_call, C73_put). Real arithmetic in the probabilistic part."
  },
  {
   "property": "C74",
   "status": "proved",
   "theorems": [
    "Verif.C74_digitalCall",
    "Verif.C74_digitalPut",
    "Verif.C74_doubleDigital",
    "Verif.C74_geometricAsianCall",
    "Verif.C74_geometricAsianPut"
   ],
   "note": "Digital calls, puts and double digitals (C74_digitalCall, C74_digitalPut, C74_doubleDigital) and geometric Asian calls and puts with any number of dates (C74_geometricAsianCall, C74_geometricAsianPut). Real arithmetic, perfect engine."
  },
  {
   "property": "C75",
   "status": "proved",
   "theorems": [
    "Verif.C75_arithmeticAsian",
    "Verif.C75_arithmeticAsian_errors",
    "Verif.C75_arithmeticPut",
    "Verif.C75_arithmeticCall",
    "Verif.C75_geometricCall",
    "Verif.C75_geometricPut"
   ],
   "note": "Strong law and central limit theorem for the sessions of C73: arithmetic Asian options in every model under a moment assumption (C75_arithmeticAsian, C75_arithmeticAsian_errors), puts without any (C75_arithmeticPut), calls under GBM (C75_arithmeticCall), geometric Asian calls and puts under GBM with the closed formulas as limits (C75_geometricCall, C75_geometricPut). Real arithmetic, perfect engine; the number of paths ranges over all natural numbers, beyond the range of the unsigned long of the code. The other pricers count paths with an int and have undefined behaviour beyond INT_MAX paths, so no limit is stated for them."
  },
  {
   "property": "C76",
   "status": "partial",
   "theorems": [
    "Verif.C76_file_partial",
    "Verif.C76_disk_fails",
    "Verif.C76_open",
    "Verif.C76_dimension_fails",
    "Verif.C76_input_fails",
    "Verif.C76_samples_fails"
   ],
   "note": "Proved below the largest unsigned int, for numeric input and a disk with room (C76_file_partial), with exit code 1 when the file cannot be opened (C76_open). The claim fails: a full disk is reported as success (C76_disk_fails), input which ends or is not a number makes the program ask forever (C76_input_fails), the answer -1 or 4294967295 makes it write forever (C76_samples_fails), an unsupported number of dimensions aborts it after the file of an earlier run was emptied (C76_dimension_fails). Formatting with 8 decimals is not modelled."
  },
  {
   "property": "C77",
   "status": "partial",
   "theorems": [
    "Verif.C77_singlePath",
    "Verif.C77_asian",
    "Verif.C77_barrier",
    "Verif.C77_throws",
    "Verif.C77_limit_partial",
    "Verif.C77_put",
    "Verif.C77_call_fails"
   ],
   "note": "The mean over points is proved for the three kinds of pricers (C77_singlePath, C77_asian, C77_barrier), the exception in C77_throws, the limit for Asian options with bounded payoff (C77_limit_partial, for a put C77_put). For an unbounded payoff such as a call uniform distribution is not enough: C77_call_fails gives uniformly distributed points for which the prices diverge. Real arithmetic; that the Boost and GSL sequences are uniformly distributed is a hypothesis."
  },
  {
   "property": "C78",
   "status": "proved",
   "theorems": [
    "Verif.C78_output",
    "Verif.C78_second",
    "Verif.C78_dimension",
    "Verif.C78_estimates",
    "Verif.C78_boundary"
   ],
   "note": "C78_output, C78_second and C78_dimension hold for every number type, in particular double precision; C78_estimates and C78_boundary are for real arithmetic. The text output is a list of texts and numbers, number formatting is not modelled. The numbers of main.cpp are accepted (mainCpp_accepted)."
  },
  {
   "property": "C79",
   "status": "proved",
   "theorems": [
    "Verif.C79_accuracy",
    "Verif.C79_law",
    "Verif.C79_asian",
    "Verif.C79_put",
    "Verif.C79_geometricPut"
   ],
   "note": "Real arithmetic: the rounding of inv_cdf in double precision is not counted. The error bound is the one of the published algorithm (3e-9 in z), proved here for the coefficients in the code. Unbounded payoffs (calls) are excluded as in C77. The accuracy proof uses exact rational certificates checked by the kernel (Lemmas/PolyCheck), each certificate being a proof for a whole interval."
  },
  {
   "property": "C80",
   "status": "proved",
   "theorems": [
    "Verif.C80_path",
    "Verif.C80_fixed",
    "Verif.C80_floating",
    "Verif.C80_put",
    "Verif.C80_gbm_fixed",
    "Verif.C80_gbm_floating"
   ],
   "note": "Exact arithmetic of the extended reals with NaN (Dbl Rounding.exact), because the pricer uses infinities; rounding is not counted. A perfect random engine is a hypothesis, shown satisfiable. For the variance gamma model the engine's gamma variates must not be negative (std::gamma_distribution); for Heston and Bates the two discretisations must agree on finite numbers and |rho| <= 1."
  },
  {
   "property": "C81",
   "status": "proved",
   "theorems": [
    "Verif.C81_path",
    "Verif.C81_european"
   ],
   "note": "Paths: any rounding with relative error 2^-53 (plus underflow 2^-1075) and any exponential with relative error 2^-52, in particular IEEE binary64 with a correctly rounded exp. European sessions: binary64 with a correctly rounded exp and |r T| <= 1, as in C66. The compiler is assumed not to contract or reorder floating-point operations."
  },
  {
   "property": "C82",
   "status": "proved",
   "theorems": [
    "Verif.C82_exact",
    "Verif.C82_put",
    "Verif.C82_call"
   ],
   "note": "The engine for doubles is assumed to serve the numbers of a perfect engine (independent normal draws) up to tau as long as these are at most B: the Mersenne twister and std::normal_distribution are not modelled. IEEE binary64 with a correctly rounded exp, |r T| <= 1."
  },
  {
   "property": "C83",
   "status": "proved",
   "theorems": [
    "Verif.C83_put",
    "Verif.C83_call",
    "Verif.C83_explicitPut",
    "Verif.C83_explicitCall",
    "Verif.C83_crankNicolsonPut",
    "Verif.C83_crankNicolsonCall",
    "Verif.C83_putConverges",
    "Verif.C83_callConverges"
   ],
   "note": "In exact arithmetic. The bounds have a free parameter delta (the width over which the kink is rounded off in the proof); the grid has at most 2^31 nodes as the program needs it."
  },
  {
   "property": "C84",
   "status": "proved",
   "theorems": [
    "Verif.C84_put",
    "Verif.C84_call",
    "Verif.C84_putConverges",
    "Verif.C84_callConverges"
   ],
   "note": "In exact arithmetic. The bound has a free parameter delta, the width over which the jump is replaced by smooth steps from below and from above in the proof."
  },
  {
   "property": "C85",
   "status": "proved",
   "theorems": [
    "Verif.C85_roundingPut",
    "Verif.C85_roundingCall",
    "Verif.C85_put",
    "Verif.C85_call",
    "Verif.C85_maturityPut",
    "Verif.C85_maturityCall"
   ],
   "note": "binary64 with rounding to nearest and an exp with relative error 2^-52 on [-650, 650]. The maturity T' of the Black-Scholes price is T or T + T/(N - 1) because the computed time loop makes N - 1 or N steps (C53_double_fails). C85_maturityPut and C85_maturityCall compare with the price for the maturity of the option."
  },
  {
   "property": "C86",
   "status": "partial",
   "theorems": [
    "Verif.C86_evaluates",
    "Verif.C86_origin",
    "Verif.C86_calculatePrice",
    "Verif.C86_market",
    "Verif.C86_unknown",
    "Verif.C86_noStrike_partial",
    "Verif.C86_retry_partial",
    "Verif.C86_retry",
    "Verif.C86_retry_fails"
   ],
   "note": "Proved for every solver with more than one time step; with a single one (N = 2) the second call after a failed one returns zeros, also for an unknown stock or a payoff without a strike (C86_retry_fails). The last sentence is proved for the Black-Scholes PDE after any history of failed calls (C86_retry; the failures of the matrix solver may depend on the matrix only, as those of the Thomas algorithm do, thomas_failsByMatrix), for any PDE failing in its first step (C86_retry_partial), and payoffs without a strike always throw (C86_noStrike_partial)."
  },
  {
   "property": "C87",
   "status": "partial",
   "theorems": [
    "Verif.C87_noNodes_fails",
    "Verif.C87_implicit_fails",
    "Verif.C87_oneNode_fails",
    "Verif.C87_oneLevel_fails",
    "Verif.C87_noLevels_fails"
   ],
   "note": "Refuted in each case: J = 0 is undefined behaviour, J = 1 gives the right boundary value as only price (undefined behaviour for the implicit schemes), N = 1 gives NaN at every inner node, and for N = 0 solve() never returns in binary64. What holds for J, N >= 2 is in C53 to C59."
  },
  {
   "property": "C88",
   "status": "proved",
   "theorems": [
    "Verif.C88_fixedLookback",
    "Verif.C88_floatingLookback",
    "Verif.C88_arithmeticAsian",
    "Verif.C88_geometricAsian",
    "Verif.C88_knockIn",
    "Verif.C88_knockOut",
    "Verif.C88_digital",
    "Verif.C88_doubleDigital"
   ],
   "note": "Proved for all eight product classes with European exercise other than the plain European option (that is C81)."
  },
  {
   "property": "C89",
   "status": "proved",
   "theorems": [
    "Verif.C89_fixedLookback",
    "Verif.C89_fixedLookbackPut",
    "Verif.C89_floatingLookback",
    "Verif.C89_arithmeticAsian",
    "Verif.C89_arithmeticAsianPut",
    "Verif.C89_geometricAsian",
    "Verif.C89_geometricAsianPut",
    "Verif.C89_geometricAsianCall_formula",
    "Verif.C89_geometricAsianPut_formula"
   ],
   "note": "Proved for fixed and floating lookbacks and for arithmetic and geometric Asian options, calls and puts."
  },
  {
   "property": "C90",
   "status": "proved",
   "theorems": [
    "Verif.C90_knockIn",
    "Verif.C90_knockInPut",
    "Verif.C90_knockOut",
    "Verif.C90_knockOutPut",
    "Verif.C90_digital",
    "Verif.C90_doubleDigital",
    "Verif.C90_digitalCall_formula",
    "Verif.C90_digitalPut_formula",
    "Verif.C90_doubleDigital_formula"
   ],
   "note": "Proved for knock-in and knock-out options, calls and puts, up and down, for digital and for double digital options."
  },
  {
   "property": "C91",
   "status": "proved",
   "theorems": [
    "Verif.C91_residual",
    "Verif.C91_exact"
   ],
   "note": "The residual, the distance from the solution, the distance from the exact run and the absence of NaN and infinity are proved. The bound does not depend on the number of equations. C46_zeroPivot shows what happens without dominance."
  },
  {
   "property": "C92",
   "status": "proved",
   "theorems": [
    "Verif.C92_roundingPut",
    "Verif.C92_roundingCall",
    "Verif.C92_put",
    "Verif.C92_call",
    "Verif.C92_maturityPut",
    "Verif.C92_maturityCall"
   ],
   "note": "Proved for calls and puts, against the exact run and against Black-Scholes. When the loop makes one step too many (C53_double_partial) the last boundary value of a call lies after expiry; lateCallGridError accounts for it and the call theorems ask for r k <= 1. C92_maturityPut and C92_maturityCall compare with the price for the maturity of the option."
  },
  {
   "property": "C93",
   "status": "proved",
   "theorems": [
    "Verif.C93_roundingPut",
    "Verif.C93_roundingCall",
    "Verif.C93_put",
    "Verif.C93_call",
    "Verif.C93_maturityPut",
    "Verif.C93_maturityCall"
   ],
   "note": "Proved for calls and puts, against the exact run of the same scheme (which drops the old boundary values, C56_fails) and against Black-Scholes. When the loop makes one step too many (C53_double_partial) the last boundary value of a call lies after expiry; lateCallGridErrorCN accounts for it and the call theorems ask for r k <= 1. C93_maturityPut and C93_maturityCall compare with the price for the maturity of the option."
  },
  {
   "property": "C94",
   "status": "proved",
   "theorems": [
    "Verif.C94_accuracy",
    "Verif.C94_size",
    "Verif.C94_symmetry",
    "Verif.C94_draw",
    "Verif.C94_sobol",
    "Verif.C94_law"
   ],
   "note": "binary64 with round to nearest and a correctly rounded logarithm. Strict monotonicity (C43) is for exact arithmetic only."
  },
  {
   "property": "C95",
   "status": "proved",
   "theorems": [
    "Verif.C95_european",
    "Verif.C95_arithmeticAsian",
    "Verif.C95_geometricAsian",
    "Verif.C95_fixedLookback",
    "Verif.C95_floatingLookback",
    "Verif.C95_knockIn",
    "Verif.C95_knockOut",
    "Verif.C95_put",
    "Verif.C95_digital"
   ],
   "note": "binary64 with round to nearest and correctly rounded log, exp, sqrt. The points themselves (Boost's sobol and faure) are a parameter, and so is their discrepancy. A call has no bound by the discrepancy alone (C77_call_fails), hence put and digital."
  },
  {
   "property": "C96",
   "status": "proved",
   "theorems": [
    "Verif.C96_put",
    "Verif.C96_call",
    "Verif.C96_maturityPut",
    "Verif.C96_maturityCall"
   ],
   "note": "binary64 with round to nearest and correctly rounded exp. Linear interpolation and the Thomas solver; the LU solver and quadratic interpolation are covered in exact arithmetic (C84). The bound for the boundary (the values of ordinary calls and puts are used, see C83/C84) does not vanish unless the grid is widened."
  },
  {
   "property": "C97",
   "status": "proved",
   "theorems": [
    "Verif.C97_gbm",
    "Verif.C97_varianceGamma",
    "Verif.C97_merton",
    "Verif.C97_mertonPayoff",
    "Verif.C97_kou",
    "Verif.C97_kouPayoff",
    "Verif.C97_gbmSteps",
    "Verif.C97_varianceGammaSteps",
    "Verif.C97_mertonSteps",
    "Verif.C97_kouSteps"
   ],
   "note": "Exact arithmetic, ideal generator. Heston and Bates are discretised, so their law does depend on the step and they are not claimed. The drift and clock parameters are those of the code: Merton has no compensator, Kou's jumps always include the down jump, the gamma clock uses nu as a rate (C63)."
  },
  {
   "property": "C98",
   "status": "partial",
   "theorems": [
    "Verif.C98_mertonPut_partial",
    "Verif.C98_mertonPut_fails"
   ],
   "note": "The average is the series at the dividend yield c - lambda kappa, where kappa is the mean relative jump, up to exp(-r T) K lambda T / 2^31; it is the series for the user's data exactly if kappa = 0. C98_mertonPut_fails: a put worth at least 100 is priced at most 60 on average because the drift has no compensator. Exact arithmetic, ideal generator."
  },
  {
   "property": "C99",
   "status": "proved",
   "theorems": [
    "Verif.C99_merton",
    "Verif.C99_kou",
    "Verif.C99_varianceGamma"
   ],
   "note": "Extends C81 beyond geometric Brownian motion. The parameters stored in the model (muJ of Kou, omega of variance gamma) are taken as they are. Heston and Bates are not claimed: an error in a variance close to zero passes through a square root."
  },
  {
   "property": "C100",
   "status": "partial",
   "theorems": [
    "Verif.C100_kou_fails",
    "Verif.C100_varianceGamma_fails",
    "Verif.C100_varianceGamma_theta_fails",
    "Verif.C100_call_fails",
    "Verif.C100_kou_partial",
    "Verif.C100_varianceGamma_partial"
   ],
   "note": "Fails for Kou with eta1 = 1 and for variance gamma with theta*nu + sigma^2*nu/2 >= 1 as computed. The partial theorems give the accuracy of the stored correction and, with C99, positive prices in all other cases of moderate size; for variance gamma the value of the library logarithm at the computed argument is a hypothesis. Merton stores no correction."
  },
  {
   "property": "C101",
   "status": "proved",
   "theorems": [
    "Verif.C101_session",
    "Verif.C101_merton",
    "Verif.C101_kou",
    "Verif.C101_varianceGamma"
   ],
   "note": "C101_session holds for any model whose simulated paths are close to exact ones; the three instances take the closeness from C99. Heston and Bates are not covered: their variance process has no such bound."
  },
  {
   "property": "C102",
   "status": "partial",
   "theorems": [
    "Verif.C102_parity",
    "Verif.C102_gbm",
    "Verif.C102_heston",
    "Verif.C102_merton_partial",
    "Verif.C102_merton_fails",
    "Verif.C102_asian",
    "Verif.C102_asian_gbm",
    "Verif.C102_asian_heston",
    "Verif.C102_bates_partial",
    "Verif.C102_bates_fails",
    "Verif.C102_kou_partial",
    "Verif.C102_kou_fails",
    "Verif.C102_varianceGamma_partial",
    "Verif.C102_varianceGamma_fails"
   ],
   "note": "C102_parity covers any model whose simulated price has an expectation; the instances for Merton, Bates, Kou and variance gamma are partial because their drift has a missing or wrong compensator (finding of C63): the _partial theorems give the parity that holds, the _fails theorems show that the right one does not."
  },
  {
   "property": "C103",
   "status": "proved",
   "theorems": [
    "Verif.C103_volatility",
    "Verif.C103_maturity",
    "Verif.C103_asian",
    "Verif.C103_asian_gbm",
    "Verif.C103_asian_heston",
    "Verif.C103_merton",
    "Verif.C103_kou"
   ],
   "note": "Exact arithmetic, idealised generator (RandomSource; perfectGen is one). The volatility orderings use the laws of C97 and Jensen's inequality for the additional normal factor, the Asian ordering the martingale of C63. Variance gamma and the volatility parameters of Heston and Bates are not covered."
  },
  {
   "property": "C104",
   "status": "proved",
   "theorems": [
    "Verif.C104_barrier",
    "Verif.C104_varianceGamma"
   ],
   "note": "Exact arithmetic, idealised generator (RandomSource; perfectGen is one). The path with m*n steps on every m-th date has the law of the path with n steps (law_thin). Only refinements by a whole factor are ordered, and only geometric Brownian motion and variance gamma are covered: the saturating Poisson counts of the jump models do not add up exactly."
  }
 ]
}