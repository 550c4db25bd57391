{"id": "C01", "title": "Market data is a last-write-wins store per ticker", "statement": "After any sequence of addStock / updateStockPrice / updateStockSigma / updateStockCoupon / setR / observer calls, getStockData(ticker) returns exactly the values given by the last write to each field of that ticker (the last successful addStock of the ticker, then the later updates of each field; an update that is rejected by validation still counts as a write, see C03), getR returns the argument of the last setR (0.05 before the first one), and writes to one ticker never change another ticker.", "quantifier": "for every finite sequence of MarketData calls, every ticker and every value, including calls that throw", "why_tests_cant": "A test fixes one call sequence; interference between tickers or a lost write can appear only after a particular longer history.", "anchors": ["include/market_data/market_data.h: MarketData::addStock", "src/market_data/market_data.cpp: MarketData::updateStockPrice, updateStockSigma, updateStockCoupon, getStockData, getR, setR", "src/market_data/stock_data.cpp: StockData::setPrice, setSigma, setCoupon"]}
{"id": "C02", "title": "Every stock served by the market data is valid", "statement": "Whatever calls were made before, a StockData obtained from getStockData has price > 0, sigma >= 0 and, if a coupon is present, 0 <= coupon <= 1.", "quantifier": "for every finite history of MarketData calls and every ticker; numbers range over all doubles including NaN and infinities", "why_tests_cant": "Validity is an invariant of all histories, including those in which a rejected call is caught and the program goes on; a unit test checks only that a particular bad value throws.", "anchors": ["src/market_data/stock_data.cpp: StockData::validate, setPrice, setSigma, setCoupon", "src/market_data/market_data.cpp: MarketData::getStockData"]}
{"id": "C03", "title": "A MarketData call that throws changes nothing", "statement": "If addStock, updateStockPrice, updateStockSigma, updateStockCoupon or getStockData throws, then the stock data of every ticker, the rate, the observer list and the notifications delivered are exactly what they were before the call.", "quantifier": "for every reachable market state and every call with every argument", "why_tests_cant": "Exception safety must hold from every state and for every rejected argument; tests assert the throw, not the complete state afterwards.", "anchors": ["include/market_data/market_data.h: MarketData::addStock", "src/market_data/market_data.cpp: updateStockPrice, updateStockSigma, updateStockCoupon", "src/market_data/stock_data.cpp: setPrice, setSigma, setCoupon"]}
{"id": "C04", "title": "An update notifies exactly the live observers of that ticker", "statement": "A successful updateStockPrice/Sigma/Coupon(ticker, v) calls update() once per registration on every registered observer that is still alive and whose id equals ticker, in registration order, after the new value is stored, and calls update() on no other observer. setR and notifyObservers do the same for all live observers. A call that throws delivers no notification.", "quantifier": "for every history of registrations, destructions and calls, every ticker and value", "why_tests_cant": "The set and order of the notified observers depend on the whole registration and destruction history.", "anchors": ["src/market_data/market_data.cpp: MarketData::notifyObserver, notifyObservers, updateStockPrice, updateStockSigma, updateStockCoupon, setR"]}
{"id": "C05", "title": "Destroyed options are never notified and leave no registration behind", "statement": "In any history in which options are created through the factories and released, the observer list after each call contains exactly the registrations of the options that are still alive, in creation order; removeObserver never removes a live observer; a released option never again receives update().", "quantifier": "for every finite history of option creations, releases and market-data calls", "why_tests_cant": "The claim is an invariant over all interleavings of creations and releases.", "anchors": ["src/market_data/market_data.cpp: MarketData::addObserver, removeObserver", "src/option/base_option.cpp: Option::~Option, Option::initialize", "include/option/base_factory_option.h: OptionFactory::createOption"]}
{"id": "C06", "title": "Handles obtained from the market data stay current", "statement": "A StockData handle returned by getStockData(ticker) (which is what a stock model keeps for its lifetime) always shows the same values as a fresh getStockData(ticker), after any further calls.", "quantifier": "for every history before and after the handle was taken", "why_tests_cant": "Aliasing between the handle and the store must survive every later history; a test exercises one.", "anchors": ["src/market_data/market_data.cpp: MarketData::getStockData", "include/market_data/market_data.h: MarketData::addStock", "src/model/base_model.cpp: StockModel::StockModel"]}
{"id": "C07", "title": "Unknown tickers are rejected without effect, known tickers stay known", "statement": "getStockData and the three update calls throw invalid_argument exactly when no addStock for that ticker has succeeded before (or, for updates, the resulting data is invalid); once added a ticker is never lost; a rejected unknown ticker changes nothing and notifies nobody.", "quantifier": "for every history and ticker", "why_tests_cant": "Depends on the complete history of calls.", "anchors": ["src/market_data/market_data.cpp: updateStockPrice, updateStockSigma, updateStockCoupon, getStockData"]}
{"id": "C08", "title": "MarketData::getInstance creates one instance under every schedule", "statement": "For any number of threads calling getInstance any number of times under any interleaving, at most one MarketData object is ever constructed, every completed call returns that object, at most one thread is inside the critical section, and the calls can always complete.", "quantifier": "for every number of threads and every schedule", "why_tests_cant": "No finite set of test runs covers all schedules.", "anchors": ["src/market_data/market_data.cpp: MarketData::getInstance"]}
{"id": "C09", "title": "StockData equality is field equality and an equivalence", "statement": "operator== on StockData holds exactly when price, sigma and coupon (both absent, or both present and equal) are equal; operator!= is its negation; on data without NaN it is reflexive, symmetric and transitive.", "quantifier": "for all pairs and triples of StockData values over all doubles", "why_tests_cant": "Ranges over all values, including NaN and the optional coupon.", "anchors": ["src/market_data/stock_data.cpp: StockData::operator==, operator!="]}
{"id": "C10", "title": "Vanilla payoffs are the positive parts, with put-call parity", "statement": "PayoffVanilla(Call,K)(S) = max(S-K,0) and PayoffVanilla(Put,K)(S) = max(K-S,0): the result is never negative, call minus put equals S-K, the call is non-decreasing and the put non-increasing in S, and both move by at most |S-S'|. Non-negativity and monotonicity also hold for rounded double arithmetic.", "quantifier": "for all spot values and strikes (all doubles for the rounded statements, all reals for parity)", "why_tests_cant": "Relations between values at all pairs of inputs.", "anchors": ["src/payoff/single_strike/payoff_vanilla.cpp: PayoffVanilla::operator()"]}
{"id": "C11", "title": "Digital payoffs are indicator functions with the documented boundaries", "statement": "PayoffDigital pays 1 exactly when S > K (call) or S < K (put) and 0 otherwise (also at S = K and for NaN); PayoffDoubleDigital pays 1 exactly when K_L <= S <= K_U and 0 otherwise. Off the strike digital call + digital put = 1.", "quantifier": "for all doubles S, K, K_L, K_U, including NaN and infinities", "why_tests_cant": "Boundary behaviour at every strike value.", "anchors": ["src/payoff/single_strike/payoff_digital.cpp", "src/payoff/double_strikes/payoff_double_digital.cpp"]}
{"id": "C12", "title": "Payoff constructors accept exactly the documented arguments", "statement": "PayoffVanilla and PayoffDigital throw invalid_argument exactly when K < 0 or the type is neither Call nor Put; PayoffDoubleDigital exactly when K_L < 0 or K_U < 0; PayoffFloatingStrikeLookback exactly when the type is neither Call nor Put; otherwise the object carries exactly the given data.", "quantifier": "for all argument values (all doubles, all enum representations)", "why_tests_cant": "Decision logic over an infinite domain.", "anchors": ["src/payoff/single_strike/base_payoff_single_strike.cpp: PayoffSingleStrike::PayoffSingleStrike", "src/payoff/single_strike/payoff_vanilla.cpp: PayoffVanilla::PayoffVanilla", "src/payoff/single_strike/payoff_digital.cpp: PayoffDigital::PayoffDigital", "src/payoff/double_strikes/base_payoff_double_strikes.cpp: PayoffDoubleStrikes::PayoffDoubleStrikes", "src/payoff/payoff_floating_strike_lookback.cpp: PayoffLookbackFloatingStrike::PayoffLookbackFloatingStrike"]}
{"id": "C13", "title": "Equal payoffs pay the same, clones are equal", "statement": "operator== on payoffs is reflexive, symmetric and transitive on payoffs without NaN strikes, is true only for payoffs of the same class, implies equal results (or equal exceptions) of both call operators on every input, and clone() returns a payoff equal to the original.", "quantifier": "for all payoffs and all inputs", "why_tests_cant": "Quantifies over all pairs of payoffs and all evaluation points.", "anchors": ["src/payoff/base_payoff.cpp: Payoff::operator==", "src/payoff/single_strike/payoff_vanilla.cpp: compare, clone", "src/payoff/single_strike/payoff_digital.cpp: compare, clone", "src/payoff/double_strikes/payoff_double_digital.cpp: compare, clone", "src/payoff/payoff_floating_strike_lookback.cpp: compare, clone"]}
{"id": "C14", "title": "Calling a payoff with the wrong number of arguments always throws logic_error", "statement": "The single-argument call throws logic_error on every floating-strike lookback payoff, the two-argument call throws logic_error on every other payoff; the right call never throws.", "quantifier": "for all payoffs and inputs", "why_tests_cant": "All classes and all inputs.", "anchors": ["src/payoff/base_payoff.cpp: Payoff::operator()"]}
{"id": "C15", "title": "ParameterObject is a typed last-write-wins map", "statement": "getParameter<T>(name) returns v exactly when the last setParameter(name, .) stored v with type T; it throws invalid_argument when the name was never set or the last stored value has another type (an int is not a double); setting one name never affects another.", "quantifier": "for every sequence of setParameter calls, every name and type", "why_tests_cant": "Histories of arbitrary length.", "anchors": ["include/option/parameter_object.h", "src/option/parameter_object.cpp"]}
{"id": "C16", "title": "A factory succeeds exactly on complete and valid parameters", "statement": "createCall/createPut of each factory returns an option exactly when every parameter the product needs is present with the right type, the strike(s) and maturity are not negative and the ticker is known; the returned option has the given ticker, maturity, barrier data and the product's payoff on the given strike(s), and is registered exactly once, as the newest observer.", "quantifier": "for every factory, every parameter object and every market state", "why_tests_cant": "Space of parameter objects and market states is infinite; partial parameter sets are a combinatorial family.", "anchors": ["include/option/base_factory_option.h: OptionFactory::createOption", "src/option/single_path/factory_european_option.cpp", "src/option/single_path/factory_digital_option.cpp", "src/option/single_path/factory_double_digital_option.cpp", "src/option/path_dependent/factory_american_option.cpp", "src/option/path_dependent/factory_asian_option.cpp", "src/option/path_dependent/factory_barrier_option.cpp", "src/option/path_dependent/factory_lookback_option.cpp", "src/option/base_option.cpp: Option::Option, Option::initialize"]}
{"id": "C17", "title": "A failing factory call has no effect and explains itself", "statement": "When createCall/createPut fails it throws invalid_argument (never another exception), the market data, rate and observer registrations are unchanged, no notification is sent, and the message is the underlying reason followed by a newline and the list of required parameters.", "quantifier": "for every factory, parameter object and market state", "why_tests_cant": "Every failure point of every factory.", "anchors": ["include/option/base_factory_option.h: OptionFactory::createOption, invalidParams"]}
{"id": "C18", "title": "Option equality means same contract on the same underlying", "statement": "Two options compare equal only if they have the same maturity, equal payoffs and the same underlying, and then have the same payoff on every input; equality is an equivalence relation.", "quantifier": "for all pairs of options and all market states", "why_tests_cant": "Quantifies over all pairs of options and market states.", "anchors": ["src/option/base_option.cpp: Option::operator=="]}
{"id": "C19", "title": "Knock-in plus knock-out equals vanilla", "statement": "On the same simulated paths the knock-in price plus the knock-out price with the same strike, barrier and direction equals the vanilla price; path by path exactly one of the two pays the vanilla payoff.", "quantifier": "for all path sets, barriers, directions, strikes, rates and maturities", "why_tests_cant": "A relation between two products over all paths.", "anchors": ["src/solver/monte_carlo/mc_barrier.cpp", "src/option/path_dependent/barrier_option.cpp"]}
{"id": "C20", "title": "Barrier crossing is detected exactly at the monitored dates", "statement": "A knock-in pays the vanilla payoff of the last price exactly when some monitored price is at or beyond the barrier (>= B for Up, <= B for Down) and 0 otherwise; a knock-out exactly when no monitored price is; the early exit of the knock-out loop does not change the result.", "quantifier": "for all non-empty paths, barriers and directions (all doubles)", "why_tests_cant": "All positions of the first crossing in paths of every length.", "anchors": ["src/solver/monte_carlo/mc_barrier.cpp: BarrierMCPricer::calculatePrice, KnockInBarrierMCPricer, KnockOutBarrierMCPricer", "src/option/path_dependent/barrier_option.cpp: isActive"]}
{"id": "C21", "title": "Lookback pricers use the true path extremes", "statement": "Fixed-strike lookback call pays max(max_t S_t - K, 0), put pays max(K - min_t S_t, 0); floating-strike call pays S_T - min_t S_t and put max_t S_t - S_T, over all monitored prices; each is at least the corresponding vanilla payoff and never negative.", "quantifier": "for all non-empty finite paths and strikes", "why_tests_cant": "Paths of every length with the extreme at every position.", "anchors": ["src/solver/monte_carlo/mc_lookback.cpp"]}
{"id": "C22", "title": "Asian pricers average correctly and respect the AM-GM ordering", "statement": "The arithmetic (geometric) Asian pricer pays the payoff of the arithmetic (geometric) mean of all monitored prices; on the same paths the geometric call is worth at most the arithmetic call and the geometric put at least the arithmetic put; the mean lies between the smallest and largest price.", "quantifier": "for all path sets with positive prices, all strikes", "why_tests_cant": "Inequality over all paths of all lengths.", "anchors": ["src/solver/monte_carlo/mc_asian.cpp"]}
{"id": "C23", "title": "Monte Carlo price is the discounted sample mean, with explicit degenerate cases", "statement": "For 1 <= N <= INT_MAX the single-path, Asian, barrier and lookback pricers simulate exactly N paths, in order, and return exp(-r T) times the mean of the N payoffs; N = 0 yields NaN and simulates nothing; N > INT_MAX is undefined behaviour for the int-indexed loops.", "quantifier": "for every N, every path source and payoff", "why_tests_cant": "N is unbounded and the path source arbitrary.", "anchors": ["src/solver/monte_carlo/mc_single_path.cpp", "src/solver/monte_carlo/mc_asian.cpp", "src/solver/monte_carlo/mc_barrier.cpp", "src/solver/monte_carlo/mc_lookback.cpp"]}
{"id": "C24", "title": "Monte Carlo prices respect no-arbitrage bounds on the simulated paths", "statement": "On the same paths call price minus put price equals exp(-rT)(mean S_T - K); the put price is at most K exp(-rT); call prices are non-increasing and put prices non-decreasing in K; prices are never negative, also in rounded arithmetic.", "quantifier": "for all path sets, strikes, rates, maturities and N >= 1", "why_tests_cant": "Relations between prices for all inputs.", "anchors": ["src/solver/monte_carlo/mc_single_path.cpp", "src/payoff/single_strike/payoff_vanilla.cpp"]}
{"id": "C25", "title": "American price is the mean of correctly discounted realised cash flows", "statement": "The American pricer returns the mean over paths of exp(-r tau) * payoff(S_tau), where tau is the exercise date selected on that path (the first monitored date at which the exercise value beats the fitted continuation value, else maturity).", "quantifier": "for every path set, every regression and basis function, every number of steps", "why_tests_cant": "Discounting must be right for every pattern of in-the-money paths over time, and every path set.", "anchors": ["src/solver/monte_carlo/mc_american.cpp: standardPrice, brownianBridgePrice"]}
{"id": "C26", "title": "American price bounds", "statement": "For r >= 0 the American price lies between 0 and the largest payoff seen on the simulated paths; a put is worth at most K.", "quantifier": "for every path set, regression outcome and number of steps", "why_tests_cant": "Must hold for every exercise pattern.", "anchors": ["src/solver/monte_carlo/mc_american.cpp"]}
{"id": "C27", "title": "Exercise decisions look only at the current and future simulated prices in the money", "statement": "At each date the fit uses exactly the paths whose exercise value is positive, in path order, with regressors from the current price and targets equal to the discounted realised later cash flow; a path out of the money is never exercised; a path is exercised iff its exercise value exceeds its fitted value; at most one cash flow per path is kept.", "quantifier": "for all path sets and regressions", "why_tests_cant": "All in/out-of-the-money patterns.", "anchors": ["src/solver/monte_carlo/mc_american.cpp"]}
{"id": "C28", "title": "American pricer selects the Brownian-bridge method only when it is supported", "statement": "calculatePrice uses the Brownian-bridge method exactly when the stock model is GBM with a pseudo-random generator; with any other model or generator it uses the standard method, so it never fails with 'backward simulation unsupported'.", "quantifier": "for every model and generator", "why_tests_cant": "All combinations of model and generator.", "anchors": ["src/solver/monte_carlo/mc_american.cpp: calculatePrice", "src/model/base_model.cpp: simulatePriceBackward"]}
{"id": "C29", "title": "MCSolver prices with the last configured pricer and N", "statement": "solve throws logic_error exactly when no pricer was ever set (or the last one set is null); otherwise it returns the last set pricer's price for the last set N (100000 if never set), independently of the order of the set calls.", "quantifier": "for every sequence of setN / setPricer / solve calls", "why_tests_cant": "Arbitrary call histories.", "anchors": ["src/solver/monte_carlo/mc_solver.cpp"]}
{"id": "C30", "title": "A builder never builds a pricer for an option of the wrong kind", "statement": "setOption of each builder accepts exactly the options of its product family and throws invalid_argument otherwise; build throws logic_error exactly when there is no accepted option; a built pricer holds an option of the builder's family.", "quantifier": "for every builder, every call sequence and option", "why_tests_cant": "Arbitrary call histories on a stateful builder.", "anchors": ["src/solver/monte_carlo/builder/base_mc_builder.cpp", "src/solver/monte_carlo/builder/mc_builder_single_path.cpp", "src/solver/monte_carlo/builder/mc_builder_asian.cpp", "src/solver/monte_carlo/builder/mc_builder_barrier.cpp", "src/solver/monte_carlo/builder/mc_lookback_builder.cpp", "src/solver/monte_carlo/builder/mc_builder_american.cpp"]}
{"id": "C31", "title": "A built pricer simulates the option's own underlying", "statement": "A pricer built without an explicit stock model simulates the ticker of the option it prices.", "quantifier": "for every call history on a builder", "why_tests_cant": "The default model is cached in the builder, so the claim depends on the history.", "anchors": ["src/solver/monte_carlo/builder/mc_builder_single_path.cpp: build", "src/solver/monte_carlo/builder/mc_builder_asian.cpp: build", "src/solver/monte_carlo/builder/mc_builder_barrier.cpp: build", "src/solver/monte_carlo/builder/mc_lookback_builder.cpp: build", "src/solver/monte_carlo/builder/mc_builder_american.cpp: build"]}
{"id": "C32", "title": "Simulated prices are positive and there is one per step", "statement": "For every model with a positive spot, simulatePrices returns exactly getSteps() prices, all positive; the price at maturity is the last of them; all prices scale proportionally with the spot.", "quantifier": "for all parameters, market data and random draws", "why_tests_cant": "All draw sequences of all lengths.", "anchors": ["src/model/gbm_model.cpp", "src/model/heston_model.cpp", "src/model/merton_jump_diffusion_model.cpp", "src/model/kou_model.cpp", "src/model/bates_model.cpp", "src/model/variance_gamma_model.cpp"]}
{"id": "C33", "title": "GBM paths follow the exact log-normal solution", "statement": "Price k of a GBM path equals S0*exp((r-c-sigma^2/2) t_k + sigma sqrt(dt) (z_1+...+z_k)); with sigma = 0 it is the deterministic forward; r, c, sigma, S0 are the values current at the call.", "quantifier": "for all parameters, numbers of steps and draws", "why_tests_cant": "Closed form for every number of steps.", "anchors": ["src/model/gbm_model.cpp: simulatePrices"]}
{"id": "C34", "title": "The simulated GBM is risk neutral", "statement": "If the draws are independent standard normals, the expected simulated price at step k is S0*exp((r-c) t_k), so the discounted price (with dividends) is a martingale and the Monte Carlo forward is unbiased.", "quantifier": "for all parameters, steps and path counts", "why_tests_cant": "A statement about a probability distribution cannot be settled by sampling.", "anchors": ["src/model/gbm_model.cpp: simulatePrices"]}
{"id": "C35", "title": "Stochastic-variance paths never take the square root of a negative number", "statement": "In Heston and Bates simulation every square root is applied to a non-negative argument, whatever the draws, so no NaN arises from a negative variance.", "quantifier": "for all parameters accepted by the constructors, dt >= 0 and all draws", "why_tests_cant": "The variance process can go negative on particular draw sequences of any length.", "anchors": ["src/model/heston_model.cpp", "src/model/bates_model.cpp", "src/model/discretization/explicit_euler_cir_discretization.cpp", "src/model/discretization/milstein_cir_discretization.cpp"]}
{"id": "C36", "title": "The variance discretisation given by the user is the one used", "statement": "A Heston or Bates model built with a variance discretisation uses that discretisation; without one it uses explicit Euler.", "quantifier": "for all constructor arguments and draws", "why_tests_cant": "Requires comparing all outputs with both schemes.", "anchors": ["src/model/heston_model.cpp: HestonModel::HestonModel", "src/model/bates_model.cpp: BatesModel::BatesModel"]}
{"id": "C37", "title": "Models accepted by their constructor can be simulated", "statement": "A model whose constructor succeeded can simulate every maturity accepted by the option constructors without throwing.", "quantifier": "for all constructor arguments and all maturities T >= 0", "why_tests_cant": "Infinite parameter space; the failure is in a distribution constructed during simulation.", "anchors": ["src/model/merton_jump_diffusion_model.cpp", "src/model/kou_model.cpp", "src/model/bates_model.cpp", "src/model/variance_gamma_model.cpp", "src/random/distribution/poisson_distrib.cpp", "src/random/distribution/exponential_distr.cpp", "src/random/distribution/gamma_distrib.cpp", "src/random/distribution/normal_distrib.cpp"]}
{"id": "C38", "title": "Each Kou jump is either an up jump or a down jump", "statement": "Every jump multiplies the price by exp(E) with E exponential(eta1) with probability p, or by exp(-E) with E exponential(eta2) otherwise.", "quantifier": "for all parameters and draws", "why_tests_cant": "Needs all draws of the jump indicator.", "anchors": ["src/model/kou_model.cpp: simulatePrices"]}
{"id": "C39", "title": "The Brownian bridge step has the law of the GBM at the earlier date", "statement": "If the later price is log-normal with the GBM law at t_{j+1}, the price produced by simulatePriceBackward is log-normal with the GBM law at t_j.", "quantifier": "for all parameters and dates 0 < t_j < t_{j+1}", "why_tests_cant": "A statement about distributions.", "anchors": ["src/model/gbm_model.cpp: simulatePriceBackward"]}
{"id": "C40", "title": "Quasi-random generators serve the points coordinate by coordinate", "statement": "The k-th draw (k = 0, 1, ...) of a Sobol or Faure generator of dimension d >= 1 is the inverse cdf of coordinate k mod d of point k / d of the underlying sequence; draws that throw also consume their coordinate; so GBM path number i is a function of point i alone.", "quantifier": "for every dimension and every number of draws", "why_tests_cant": "A refinement over histories of any length.", "anchors": ["src/random/number_generator/base_quasi_random_generator.cpp", "src/random/number_generator/sobol_quasi_random_generator.cpp", "src/random/number_generator/faure_quasi_random_generator.cpp"]}
{"id": "C41", "title": "The seed determines the pseudo-random stream", "statement": "Two pseudo-random generators built with different seeds produce different streams (and with the same seed the same stream).", "quantifier": "for all seeds", "why_tests_cant": "Equality of whole streams for all seeds.", "anchors": ["src/random/number_generator/pseudo_random_generator.cpp"]}
{"id": "C42", "title": "Jump and gamma models cannot be driven by quasi-random generators", "statement": "With a quasi-random generator Merton, Kou, Bates and variance-gamma simulation of at least one step throws (never silently returns prices).", "quantifier": "for all parameters, steps and generator states", "why_tests_cant": "All parameters and states.", "anchors": ["src/random/distribution/poisson_distrib.cpp: inv_cdf", "src/random/distribution/gamma_distrib.cpp: inv_cdf", "src/model/merton_jump_diffusion_model.cpp: simulatePrices", "src/model/kou_model.cpp: simulatePrices", "src/model/bates_model.cpp: simulatePrices", "src/model/variance_gamma_model.cpp: simulatePrices"]}
{"id": "C43", "title": "Normal quantile function: domain, symmetry, sign and monotonicity", "statement": "StandardNormalDistribution::inv_cdf throws invalid_argument exactly for q <= 0 or q >= 1, satisfies inv_cdf(1-q) = -inv_cdf(q), is negative below 1/2, zero at 1/2 and positive above, and is strictly increasing on (0,1).", "quantifier": "for all real q (NaN treated separately)", "why_tests_cant": "Monotonicity relates all pairs of inputs.", "anchors": ["src/random/distribution/standard_normal_distribution.cpp: inv_cdf"]}
{"id": "C44", "title": "Linear interpolation is the piecewise-linear interpolant", "statement": "On a strictly increasing non-empty grid the interpolator never throws for a real argument, returns the node value at nodes, clamps outside, lies between the neighbouring node values, reproduces affine data exactly, and is non-decreasing for non-decreasing data.", "quantifier": "for all grids, data and arguments", "why_tests_cant": "Grids of every length and arguments in every position.", "anchors": ["src/numerical_analysis/interpolation/linear_interpolation.cpp"]}
{"id": "C45", "title": "Quadratic interpolation finds the right interval and is exact on quadratics", "statement": "On a strictly increasing grid and every real argument the binary search never reads outside the arrays, never wraps, terminates and never throws; the result interpolates the nodes, clamps outside, and equals the quadratic through the three nodes used in the interior (linear in the first and last interval).", "quantifier": "for all grids of size 1 to 2^31, data and arguments", "why_tests_cant": "Search over arrays of every size.", "anchors": ["src/numerical_analysis/interpolation/quadratic_interpolation.cpp"]}
{"id": "C46", "title": "The Thomas algorithm solves the tridiagonal system", "statement": "ThomasAlgorithm::solve throws invalid_argument for systems of size below 2; for every tridiagonal system of size n >= 2 for which no pivot vanishes the returned x satisfies A x = b, and if A is nonsingular x is the unique solution.", "quantifier": "for all sizes and coefficients", "why_tests_cant": "Induction over the size.", "anchors": ["src/numerical_analysis/linear_algebra/matrix_solver/thomas_algorithm.cpp: ThomasAlgorithm::solve"]}
{"id": "C47", "title": "Diagonally dominant systems never divide by zero in the Thomas algorithm", "statement": "For every strictly diagonally dominant tridiagonal matrix all pivots are nonzero, so solve returns the unique solution.", "quantifier": "for all sizes and coefficients", "why_tests_cant": "Induction over the size.", "anchors": ["src/numerical_analysis/linear_algebra/matrix_solver/thomas_algorithm.cpp: ThomasAlgorithm::solve"]}
{"id": "C48", "title": "Basis functions have one column per basis function, column n a polynomial of degree n", "statement": "generate(x) has x.size() rows and numberBasis columns; column n is a fixed polynomial of degree exactly n in x; monomial and Chebyshev and Legendre columns are the classical polynomials, so all bases span the same regression space.", "quantifier": "for all numbers of basis functions and all x", "why_tests_cant": "Induction over the degree.", "anchors": ["src/numerical_analysis/basis_function/base_basis_function.cpp", "src/numerical_analysis/basis_function/monomial.cpp", "src/numerical_analysis/basis_function/chebyshev.cpp", "src/numerical_analysis/basis_function/legendre.cpp", "src/numerical_analysis/basis_function/laguerre.cpp"]}
{"id": "C49", "title": "Laguerre columns are the Laguerre polynomials", "statement": "Column n of LaguerreBasisFunction::generate(x) is the classical Laguerre polynomial L_n(x).", "quantifier": "for all n and x", "why_tests_cant": "All degrees.", "anchors": ["src/numerical_analysis/basis_function/laguerre.cpp"]}
{"id": "C50", "title": "Least-squares regression gives basis-independent continuation values", "statement": "With least-squares regression the fitted values do not depend on which of the four bases is used (same number of basis functions).", "quantifier": "for all samples and numbers of basis functions", "why_tests_cant": "All samples.", "anchors": ["src/numerical_analysis/regression/least_squares.cpp", "src/numerical_analysis/basis_function/base_basis_function.cpp", "src/numerical_analysis/basis_function/monomial.cpp", "src/numerical_analysis/basis_function/chebyshev.cpp", "src/numerical_analysis/basis_function/legendre.cpp", "src/numerical_analysis/basis_function/laguerre.cpp"]}
{"id": "C51", "title": "Lasso regression minimises the lasso objective", "statement": "LassoRegression::solve returns a minimiser of (1/2)||A x - y||^2 + lambda ||x||_1; the soft threshold never increases a coefficient's magnitude, never flips its sign and zeroes exactly those with magnitude at most lambda.", "quantifier": "for all A, y, lambda >= 0", "why_tests_cant": "Optimality over all alternatives.", "anchors": ["src/numerical_analysis/regression/lasso.cpp"]}
{"id": "C52", "title": "Ridge regression returns the unique minimiser of the ridge objective", "statement": "For lambda > 0 RidgeRegression::solve returns the unique minimiser of ||A x - y||^2 + lambda ||x||^2; for lambda < 0 the constructor throws.", "quantifier": "for all A, y, lambda", "why_tests_cant": "Optimality over all alternatives.", "anchors": ["src/numerical_analysis/regression/ridge.cpp"]}
{"id": "C53", "title": "FDM grids are uniform and cover the domain", "statement": "For J >= 2 and N >= 2 the space grid has J points from 0 to xDom with equal spacing, and solve performs exactly N-1 time steps, the last one at tDom.", "quantifier": "for all J, N, domains", "why_tests_cant": "All grid sizes.", "anchors": ["src/solver/finite_difference_method/solver/one_factor/base_fdm_solver.cpp"]}
{"id": "C54", "title": "Explicit Euler solves the discretised PDE", "statement": "Each explicit Euler step satisfies, at every interior node, the forward-time central-space discretisation of V_t = diffusion V_xx + convection V_x + reaction V - rhs, with the prescribed boundary values.", "quantifier": "for all PDEs, grids and time levels", "why_tests_cant": "All nodes of all grids.", "anchors": ["src/solver/finite_difference_method/solver/one_factor/euler_explicit_fdm_solver.cpp"]}
{"id": "C55", "title": "Implicit Euler solves the discretised PDE", "statement": "Each implicit Euler step satisfies, at every interior node, the backward-time central-space discretisation with the prescribed boundary values, whenever the linear solver returns a solution.", "quantifier": "for all PDEs, grids and time levels", "why_tests_cant": "All nodes of all grids.", "anchors": ["src/solver/finite_difference_method/solver/one_factor/euler_implicit_fdm_solver.cpp"]}
{"id": "C56", "title": "Crank-Nicolson solves the discretised PDE", "statement": "Each Crank-Nicolson step satisfies, at every interior node, the average of the forward and backward discretisations.", "quantifier": "for all PDEs, grids and time levels", "why_tests_cant": "All nodes of all grids.", "anchors": ["src/solver/finite_difference_method/solver/one_factor/crank_nicolson_fdm_solver.cpp"]}
{"id": "C57", "title": "Crank-Nicolson works with its default linear solver", "statement": "A Crank-Nicolson solver constructed without an explicit linear solver completes its time steps.", "quantifier": "for all PDEs and grids with at least two interior nodes", "why_tests_cant": "All PDEs and grid sizes.", "anchors": ["src/solver/finite_difference_method/solver/one_factor/crank_nicolson_fdm_solver.cpp", "src/numerical_analysis/linear_algebra/matrix_solver/lu_decomposition.cpp"]}
{"id": "C58", "title": "Implicit Euler preserves positivity and bounds for every step size", "statement": "For the Black-Scholes PDE with sigma^2 >= |r-c| and r >= 0, an implicit Euler step with the Thomas solver never divides by zero, keeps non-negative data non-negative and does not exceed the larger of the data and the boundary values.", "quantifier": "for all grids and step sizes", "why_tests_cant": "Unconditional stability quantifies over all step sizes.", "anchors": ["src/solver/finite_difference_method/solver/one_factor/euler_implicit_fdm_solver.cpp", "src/numerical_analysis/linear_algebra/matrix_solver/thomas_algorithm.cpp"]}
{"id": "C59", "title": "Explicit Euler preserves positivity and bounds under its step condition", "statement": "If all three stencil weights are non-negative, explicit Euler keeps non-negative data non-negative and obeys the discrete maximum principle; the solver's own stability check guarantees this.", "quantifier": "for all grids", "why_tests_cant": "All grids and data.", "anchors": ["src/solver/finite_difference_method/solver/one_factor/euler_explicit_fdm_solver.cpp", "src/solver/finite_difference_method/solver/one_factor/base_fdm_solver.cpp"]}
{"id": "C60", "title": "Boundary values agree with the discounted payoff", "statement": "The Black-Scholes boundary functions agree with the initial condition at the start of the time marching and with the discounted asymptotics of the option at later times.", "quantifier": "for all times, strikes, rates", "why_tests_cant": "All times.", "anchors": ["src/solver/finite_difference_method/pde/one_factor/black_scholes_pde.cpp"]}
{"id": "C61", "title": "Repeated FDM pricing is idempotent and reflects current market data", "statement": "solve() called again returns the same vector; calculatePrice returns the price for the market data current at the call.", "quantifier": "for every history of market updates and pricing calls", "why_tests_cant": "Histories.", "anchors": ["src/solver/finite_difference_method/solver/one_factor/base_fdm_solver.cpp: solve, calculatePrice"]}
{"id": "C62", "title": "FDM price of an expiring option is its payoff", "statement": "With maturity 0 the FDM solver returns the payoff on the grid.", "quantifier": "for all options and grids", "why_tests_cant": "All options and grids.", "anchors": ["src/solver/finite_difference_method/solver/one_factor/base_fdm_solver.cpp: solve"]}
{"id": "C63", "title": "Every stock model is risk neutral", "statement": "With a perfect random number generator the expected simulated price at each date is the forward price S0 exp((r - q) t) and the discounted simulated price is a martingale, for every model: geometric Brownian motion, Heston, Bates, Merton, Kou, variance gamma.", "quantifier": "for all model parameters accepted by the constructors, all spots, rates, yields, maturities and numbers of steps, and every generator whose draws are independent with the requested laws", "why_tests_cant": "A statement about expectations over all paths; a finite sample only bounds it statistically, for a few parameters.", "anchors": ["src/model/gbm_model.cpp", "src/model/heston_model.cpp", "src/model/bates_model.cpp", "src/model/merton_jump_diffusion_model.cpp", "src/model/kou_model.cpp", "src/model/variance_gamma_model.cpp"]}
{"id": "C64", "title": "Distribution objects check their parameters and sample from the distribution they name", "statement": "The constructor of a distribution throws invalid_argument exactly if the parameters are not admissible (standard deviation, mean, rate or shape not positive; empty interval), and otherwise the object draws from the distribution with these parameters.", "quantifier": "for all parameters, NaN included, and every generator whose draws are independent with the law of the std distribution that is sampled", "why_tests_cant": "The laws cannot be observed in finitely many draws; all parameters.", "anchors": ["src/random/distribution/normal_distrib.cpp", "src/random/distribution/poisson_distrib.cpp", "src/random/distribution/continuous_uniform_distrib.cpp", "include/random/distribution/continuous_uniform_distrib.h: uniform_dist_", "src/random/distribution/exponential_distr.cpp", "src/random/distribution/gamma_distrib.cpp"]}
{"id": "C65", "title": "Monte Carlo prices are unbiased, with the variance of the discounted payoff over the number of paths, in every model", "statement": "For every stock model, the prices returned by the single path, arithmetic and geometric Asian and knock-in/knock-out barrier Monte Carlo pricers have as expectation the discounted expected payoff of the simulated path (last price, arithmetic mean, geometric mean, payoff if the barrier was or was not touched) and as variance the variance of that discounted payoff divided by the number of paths; the probability of an error of at least eps is at most that variance over eps^2.", "quantifier": "for all models with admissible parameters, payoffs with finite variance, market data, maturities, numbers of steps and of paths, and every generator whose draws are independent with the law of the std distribution that is sampled", "why_tests_cant": "Expectation and variance of the result are statements about all random streams at once, and they must hold for every number of paths.", "anchors": ["src/solver/monte_carlo/mc_single_path.cpp", "src/solver/monte_carlo/mc_asian.cpp", "src/solver/monte_carlo/mc_barrier.cpp", "src/model/base_model.cpp", "src/model/gbm_model.cpp", "src/model/heston_model.cpp", "src/model/bates_model.cpp", "src/model/merton_jump_diffusion_model.cpp", "src/model/kou_model.cpp", "src/model/variance_gamma_model.cpp"]}
{"id": "C66", "title": "Rounding errors of the Monte Carlo average are negligible", "statement": "In IEEE binary64 arithmetic (round to nearest even) the price returned by the single path, Asian, barrier and lookback pricers differs from the exactly computed discounted mean of the payoffs of the simulated paths by at most the relative error (N+9) 2^-52 plus 2^-1070, N the number of paths; in particular neither overflow nor NaN occurs.", "quantifier": "for all path sources, payoffs with non-negative results whose sum is at most 2^1000, numbers of paths N up to INT_MAX, rates and maturities with |r T| <= 1", "why_tests_cant": "A worst-case bound over all payoff sequences of any length; tests see single runs.", "anchors": ["src/solver/monte_carlo/mc_single_path.cpp", "src/solver/monte_carlo/mc_asian.cpp", "src/solver/monte_carlo/mc_barrier.cpp", "src/solver/monte_carlo/mc_lookback.cpp"]}
{"id": "C67", "title": "The finite difference schemes converge to the solution of the equation", "statement": "If the problem described by a ParabolicPDE object has a smooth solution, then the values returned by solve() and by calculatePrice() differ from that solution at maturity by at most a constant times the time step plus a constant times the square of the space step; the constants depend only on bounds for the coefficients and for the derivatives of the solution.", "quantifier": "for all equations with smooth solution in which diffusion dominates convection on the grid and the reaction is not positive, all domains, numbers of nodes and of time points (explicit Euler and Crank-Nicolson: with non-negative weights), all spot prices on the domain and both interpolations", "why_tests_cant": "An error bound for all grids and all equations; a test compares single numbers on single grids.", "anchors": ["src/solver/finite_difference_method/solver/one_factor/base_fdm_solver.cpp", "src/solver/finite_difference_method/solver/one_factor/euler_explicit_fdm_solver.cpp", "src/solver/finite_difference_method/solver/one_factor/euler_implicit_fdm_solver.cpp", "src/solver/finite_difference_method/solver/one_factor/crank_nicolson_fdm_solver.cpp", "src/numerical_analysis/interpolation/linear_interpolation.cpp", "src/numerical_analysis/interpolation/quadratic_interpolation.cpp"]}
{"id": "C68", "title": "Observers may use the market data from inside update()", "statement": "A user-defined observer may call the market data from inside its update(): when the outermost call returns, every live observer it concerns has last been notified when its ticker and the rate had their present values, and observers that were up to date stay so; an observer that only reads changes nothing at all.", "quantifier": "for all behaviours of all observers (any nested calls, to any depth, depending on everything they see), all reachable states and all calls", "why_tests_cant": "The observers are arbitrary programs, nested arbitrarily deep; undefined behaviour after iterator invalidation may go unnoticed in a test run.", "anchors": ["src/market_data/market_data.cpp", "include/market_data/market_data_observer.h"]}
{"id": "C69", "title": "Which uses of the market data by several threads are free of data races", "statement": "Threads that only look stocks up, read stock data and the rate and notify never race, and all see the values of the start; a program that sets up in one thread, reads in any number of threads and joins them before it writes again has no data race; updates of different tickers may run at the same time. Creating or destroying options, adding stocks, setting the rate, or updating a stock that another thread reads needs ordering by the caller.", "quantifier": "for all numbers of threads, all programs of the threads, all schedules, all initial market data and all histories", "why_tests_cant": "A data race is undefined behaviour of one schedule among unboundedly many and usually leaves no trace in a test run.", "anchors": ["src/market_data/market_data.cpp", "src/market_data/stock_data.cpp", "src/option/base_option.cpp"]}
{"id": "C70", "title": "Simulated paths are independent, and prices of bounded payoffs come with confidence intervals", "statement": "The single path, Asian and barrier Monte Carlo pricers return the discount factor times the average of independent copies of the payoff of one simulated path, whatever the model; for a payoff between a and b the probability that the price is off the discounted expected payoff by eps or more is at most 2 exp(-2 N eps^2 / (e^(-rT) (b - a))^2). For a put with strike K the width is the strike.", "quantifier": "for all models with admissible parameters, all payoffs, numbers of steps and paths, barriers, tolerances and confidence levels, for a perfect random source", "why_tests_cant": "A test sees one run of one seed; independence of all paths and the probability of rare errors are statements about the law of all runs.", "anchors": ["src/solver/monte_carlo/mc_american.cpp: calculatePrice", "src/solver/monte_carlo/mc_asian.cpp: calculatePrice", "src/solver/monte_carlo/mc_barrier.cpp: calculatePrice", "src/solver/monte_carlo/mc_lookback.cpp: calculatePrice", "src/solver/monte_carlo/mc_single_path.cpp: calculatePrice", "src/solver/monte_carlo/mc_solver.cpp: calculatePrice", "src/model/bates_model.cpp: simulatePrices", "src/model/gbm_model.cpp: simulatePrices", "src/model/heston_model.cpp: simulatePrices", "src/model/kou_model.cpp: simulatePrices", "src/model/merton_jump_diffusion_model.cpp: simulatePrices", "src/model/variance_gamma_model.cpp: simulatePrices", "src/random/number_generator/pseudo_random_generator.cpp", "src/random/distribution/base_distribution.cpp", "src/random/distribution/continuous_uniform_distrib.cpp", "src/random/distribution/exponential_distr.cpp", "src/random/distribution/gamma_distrib.cpp", "src/random/distribution/normal_distrib.cpp", "src/random/distribution/poisson_distrib.cpp", "src/random/distribution/standard_normal_distribution.cpp"]}
{"id": "C71", "title": "Prices computed from the same random numbers respect the orderings between contracts", "statement": "If one contract always pays at most as much as another (a call with a higher strike, a put with a lower strike, a digital with a worse strike, a double digital on a smaller interval, a knock-out with a barrier easier to touch, a knock-in with a barrier harder to touch), then started from the same state of the generator its Monte Carlo price is never greater than that of the other, in floating point with rounding, overflow and NaN. Over the reals the price of a call or put spread is between 0 and the discounted difference of the strikes, and prices are convex in the strike.", "quantifier": "for all strikes, barriers, rates, maturities, path sources and numbers of paths, all roundings that are monotone, all pricers (single path, Asian, barrier, fixed strike lookback)", "why_tests_cant": "Rounding errors could break an inequality on some path out of millions; only a proof covers all paths, strikes and roundings.", "anchors": ["src/solver/monte_carlo/mc_single_path.cpp", "src/solver/monte_carlo/mc_asian.cpp", "src/solver/monte_carlo/mc_barrier.cpp", "src/solver/monte_carlo/mc_lookback.cpp", "src/payoff/base_payoff.cpp", "src/payoff/payoff_floating_strike_lookback.cpp", "src/payoff/double_strikes/base_payoff_double_strikes.cpp", "src/payoff/double_strikes/payoff_double_digital.cpp", "src/payoff/single_strike/base_payoff_single_strike.cpp", "src/payoff/single_strike/payoff_digital.cpp", "src/payoff/single_strike/payoff_vanilla.cpp", "src/option/path_dependent/barrier_option.cpp"]}
{"id": "C72", "title": "Monte Carlo pricing reads the current market data and changes nothing but its generator", "statement": "In every program, a Monte Carlo price is the one a model and pricer built at that moment would give: it is computed from the price, volatility, dividend and rate written last, and depends on nothing else but the option, the number of paths and the state of the model's generator. Simulating, building and pricing leave the market data, the observers and all other generators as they are, also when they throw.", "quantifier": "every program of calls on market data, generators, models, builders and pricers, every pricer class, every model, every environment", "why_tests_cant": "Tests use a few fixed sequences of calls; dependence on stale caches or on unrelated objects shows only in particular interleavings of updates, rebuilt models and shared generators.", "anchors": ["src/model/base_model.cpp: StockModel::StockModel, stockData_", "src/model/bates_model.cpp: simulatePrices", "src/model/gbm_model.cpp: simulatePrices", "src/model/heston_model.cpp: simulatePrices", "src/model/kou_model.cpp: simulatePrices", "src/model/merton_jump_diffusion_model.cpp: simulatePrices", "src/model/variance_gamma_model.cpp: simulatePrices", "src/model/variance_gamma_model.cpp: VarianceGammaModel (omega_)", "src/solver/monte_carlo/mc_american.cpp: calculatePrice", "src/solver/monte_carlo/mc_asian.cpp: calculatePrice", "src/solver/monte_carlo/mc_barrier.cpp: calculatePrice", "src/solver/monte_carlo/mc_lookback.cpp: calculatePrice", "src/solver/monte_carlo/mc_single_path.cpp: calculatePrice", "src/solver/monte_carlo/mc_solver.cpp: calculatePrice", "include/market_data/market_data.h: addStock"]}
{"id": "C73", "title": "A pricing session returns an estimate of the price of the contract it was given", "statement": "A program that enters market data, sets option parameters, creates an option with a factory, a model, a pricer with a builder and lets MCSolver price it gets the price of that contract under that model, whatever the program did before; repeating it gives the same result. If the engine is perfect, the result for European, digital, Asian and barrier options is the discounted average of the payoff over independent copies of the simulated path, in every model (lookback options are the subject of C80); for European options under GBM it is an unbiased estimator of the Black-Scholes price with standard error falling as one over the square root of N, and for puts an exponential bound on the probability of any error.", "quantifier": "every accepted session (ticker, market data, parameters, product, model, generator dimension, number of paths), every earlier state of the program, every order of argument evaluation, every outcome of std::random_device, every perfect engine", "why_tests_cant": "A test compares one price on one seed with a tolerance; that no earlier state leaks into the price and that the result estimates the right number for all inputs is a statement about all histories and about a probability law.", "anchors": ["main.cpp: main", "src/solver/monte_carlo/mc_solver.cpp: MCSolver::solve", "src/option/path_dependent/factory_american_option.cpp", "src/option/path_dependent/factory_asian_option.cpp", "src/option/path_dependent/factory_barrier_option.cpp", "src/option/path_dependent/factory_lookback_option.cpp", "src/option/single_path/factory_digital_option.cpp", "src/option/single_path/factory_double_digital_option.cpp", "src/option/single_path/factory_european_option.cpp", "include/solver/monte_carlo/builder/base_mc_builder.h: setOption, setStockPriceModel, build", "include/solver/monte_carlo/builder/mc_builder_american.h: setOption, build", "include/solver/monte_carlo/builder/mc_builder_asian.h: setOption, build", "include/solver/monte_carlo/builder/mc_builder_barrier.h: setOption, build", "include/solver/monte_carlo/builder/mc_builder_lookback.h: setOption, build", "include/solver/monte_carlo/builder/mc_builder_single_path.h: setOption, build", "src/random/number_generator/pseudo_random_generator.cpp: operator()", "include/market_data/market_data.h: addStock, setR"]}
{"id": "C74", "title": "Digital and geometric Asian prices under GBM estimate the closed formulas", "statement": "A pricing session for a digital, double digital or geometric Asian option under the GBM model returns an unbiased estimator of the closed formula for that option: discounted normal probabilities for digital options, and the Black-Scholes type formula with the volatility and drift of the geometric mean of the n simulated dates for geometric Asian options.", "quantifier": "every accepted session with such an option and positive volatility, strike and maturity (all other market data, every positive number of simulated dates up to INT_MAX and of paths, for digital options up to INT_MAX paths), every earlier state of the program, every perfect engine", "why_tests_cant": "A test compares one noisy price with one number; that the expected value equals the formula for all parameters, and that the averaging dates are the right ones, is a statement about a probability law.", "anchors": ["main.cpp: main", "src/payoff/single_strike/payoff_digital.cpp", "src/payoff/double_strikes/payoff_double_digital.cpp", "src/solver/monte_carlo/mc_asian.cpp: GeometricAsianMCPricer", "src/solver/monte_carlo/mc_single_path.cpp", "src/model/gbm_model.cpp"]}
{"id": "C75", "title": "Asian prices converge as the number of paths grows, with normal errors", "statement": "The price of an Asian option from a pricing session converges almost surely to the discounted expectation of the payoff when the number of paths grows, and if the payoff has a positive finite variance the error divided by the standard error is asymptotically standard normal, so that the usual confidence intervals have asymptotically the right level. For geometric Asian options under GBM the limit is the closed formula; for arithmetic Asian puts convergence needs no assumption on the model.", "quantifier": "every accepted session with an Asian option, every model, every earlier state of the program, every perfect engine, almost every state of the engine, all pairs of confidence bounds", "why_tests_cant": "A limit over the number of paths and a statement about almost every seed cannot be observed in any finite number of runs.", "anchors": ["src/solver/monte_carlo/mc_asian.cpp: AsianMCPricer::calculatePrice, ArithmeticAsianMCPricer::computeAveragePrice, GeometricAsianMCPricer::computeAveragePrice", "src/solver/monte_carlo/mc_solver.cpp: MCSolver::solve", "main.cpp: main"]}
{"id": "C76", "title": "generate_sobol exports exactly the samples it was asked for, or reports failure", "statement": "The program generate_sobol asks until both numbers are positive, then ends; with exit code 0 the file has the header and one row for every sample and dimension, sample by sample, with the coordinates of the Sobol and Faure points divided by their maxima and consecutive uniform numbers. If the file cannot be written completely the program reports failure.", "quantifier": "every input on standard input, every number of samples and dimensions, every disk, every Sobol and Faure sequence and engine", "why_tests_cant": "Whether the program ends for every input, and what happens at the largest unsigned int or on a full disk, concerns all executions including infinite ones.", "anchors": ["examples/generate_sobol.cpp: main, createOutputDir"]}
{"id": "C77", "title": "Quasi Monte Carlo prices are averages over the points of the sequence and converge when the points are uniformly distributed", "statement": "With a Sobol or Faure generator and a geometric Brownian motion model the price of a single-path, Asian or barrier option is the discounted mean of the payoff over the first N points of the sequence, path n being made from point n. If the points are uniformly distributed in the unit cube the price converges to the discounted integral of the payoff over the cube as N grows. A point on the boundary of the cube ends the pricing with invalid_argument.", "quantifier": "every sequence of points, every dimension, every number of paths, all market data, every payoff (for the limit: bounded, with at most countably many jumps)", "why_tests_cant": "Convergence is a statement about infinitely many numbers of paths, and the correspondence between points and paths must hold for every dimension and every buffer position.", "anchors": ["src/random/number_generator/sobol_quasi_random_generator.cpp: SobolGenerator::operator()", "src/random/number_generator/faure_quasi_random_generator.cpp: FaureGenerator::operator()", "src/random/distribution/standard_normal_distribution.cpp: inv_cdf", "src/model/gbm_model.cpp: simulatePrices", "src/solver/monte_carlo/mc_single_path.cpp", "src/solver/monte_carlo/mc_asian.cpp", "src/solver/monte_carlo/mc_barrier.cpp"]}
{"id": "C78", "title": "The program main prints the prices of its two pricers and nothing else influences them", "statement": "For all data the library accepts, main ends normally after writing two lines: the price which the Asian session alone gives with a pseudo random generator, and the price a pricer alone gives on a new Sobol generator. The other models, options, pricers, the shared builder and the shared solver have no influence. With a perfect engine the first is an unbiased estimate of the price of the Asian call, the second the mean over the first N Sobol points. A Sobol point on the boundary of the cube ends the program with invalid_argument after the first line, an unsupported dimension before any output.", "quantifier": "all accepted data (not only the numbers in main.cpp), every state in which the program starts, every evaluation order, every outcome of the random device, every engine and every Sobol sequence", "why_tests_cant": "The program shares generators, builder, solver and market data between many objects; that they do not interfere must hold for all data and all sequences of random numbers.", "anchors": ["main.cpp: main"]}
{"id": "C79", "title": "inv_cdf inverts the normal distribution function to within half a billionth, and so do the quasi Monte Carlo prices", "statement": "For every probability u in (0,1) inv_cdf returns a z with |Phi(z) - u| <= 5e-10. So inv_cdf of a uniform draw has the standard normal law up to 5e-10 at every point, and if the Sobol or Faure points are uniformly distributed, the quasi Monte Carlo prices of an Asian option with a bounded monotone payoff converge to a limit that differs from the exact Black-Scholes price by at most 5e-10 of the discounted bound of the payoff per date; for a geometric Asian put from the closed formula.", "quantifier": "all probabilities, all market data, maturities, numbers of dates, strikes and monotone bounded payoffs, all sequences with uniformly distributed points", "why_tests_cant": "The accuracy of a rational approximation with coefficients from a paper must hold at every point of an interval; a test samples points, and a wrong digit far down in a coefficient shows only in some places.", "anchors": ["src/random/distribution/standard_normal_distribution.cpp: inv_cdf", "src/random/number_generator/sobol_quasi_random_generator.cpp: SobolGenerator::operator()", "src/random/number_generator/faure_quasi_random_generator.cpp: FaureGenerator::operator()", "src/model/gbm_model.cpp: simulatePrices", "src/solver/monte_carlo/mc_single_path.cpp", "src/solver/monte_carlo/mc_asian.cpp", "src/solver/monte_carlo/mc_barrier.cpp"]}
{"id": "C80", "title": "A lookback session estimates the discounted expected payoff of the lookback contract", "statement": "A session that prices a lookback option through the public API (market data, option factory, model, builder, solver, pricer) with finite data never returns an infinity or NaN, although the pricer starts its running extremes from infinity; it returns the discounted average over N independent paths of the contract's payoff: max(highest - K, 0) or max(K - lowest, 0) for fixed strikes, last - lowest or highest - last for floating strikes, the extremes being over the monitoring dates. For fixed-strike puts in every model the error exceeds eps with probability at most 2 exp(-2 N eps^2 / (K exp(-rT))^2). For a geometric Brownian motion the price is an unbiased estimator of the exact discounted expectation, with variance proportional to 1/N.", "quantifier": "all six stock models and their finite parameters, all accepted market data, maturities, strikes, numbers of dates and of paths, all states of the library before the session", "why_tests_cant": "It is a statement about the law of the result, about all numbers of dates and paths, and about arithmetic with infinities that must never reach the result.", "anchors": ["src/solver/monte_carlo/mc_lookback.cpp: LookbackMCPricer::calculatePrice, FloatingStrikeLookbackMCPricer::computePayoff, FixedStrikeLookbackMCPricer::computePayoff", "src/payoff/payoff_floating_strike_lookback.cpp: PayoffLookbackFloatingStrike::operator()", "src/option/path_dependent/factory_lookback_option.cpp", "src/solver/monte_carlo/builder/mc_lookback_builder.cpp"]}
{"id": "C81", "title": "In double precision the GBM paths and European prices are those of exact arithmetic for the same random numbers, up to proved rounding bounds", "statement": "For the same normal numbers, each price of a simulated GBM path computed in double precision has a relative error of at most 2^-49 times (number of steps so far + sum of the sizes of the drifts and diffusions in the exponents), as long as data and prices stay away from the limits of the format. A whole session that prices a European call or put then returns a finite number, equal to the discounted mean of the payoffs on the exact paths up to the mean of these errors and a relative error of (N + 9) 2^-52.", "quantifier": "all market data, maturities, strikes, numbers of dates and of paths, all sequences of normal numbers, within the stated (very wide) ranges; for the paths every rounding and exponential with double precision accuracy", "why_tests_cant": "Rounding errors accumulate over all steps and paths and depend on every digit of the data; tests compare with tolerances chosen by hand and only at chosen inputs.", "anchors": ["src/model/gbm_model.cpp: simulatePrices, simulatePriceAtMaturity", "src/solver/monte_carlo/mc_single_path.cpp: calculatePrice", "src/payoff/single_strike/payoff_vanilla.cpp: operator()"]}
{"id": "C82", "title": "A European price computed in double precision from random numbers is close to the Black-Scholes price with a proved probability", "statement": "A whole session with the pseudo random generator that prices a European call or put on a GBM in double precision returns a number, and this number is off the Black-Scholes price by eps + gap or more with a probability of at most a sampling bound plus 4 N n exp(-B^2/2). The sampling bound is 2 exp(-2 N eps^2 / (e^{-rT} K)^2) for puts and Var / (N eps^2) for calls; gap is an explicit bound for all rounding errors of the program and for the errors tau of the normal numbers. With probability 1 - 4 N n exp(-B^2/2) the price in doubles and the price of the same program in exact arithmetic differ by at most gap.", "quantifier": "all market data, strikes, maturities, numbers of dates n and of paths N, all eps, B and tau within the stated ranges, all perfect engines, and all states of the rest of the program", "why_tests_cant": "The claim is about the law of the random numbers and about every rounding in all steps of all paths at once. A test sees a single sequence of random numbers and a hand made tolerance.", "anchors": ["main.cpp: main", "src/model/gbm_model.cpp: simulatePrices, simulatePriceAtMaturity", "src/solver/monte_carlo/mc_single_path.cpp: calculatePrice", "src/payoff/single_strike/payoff_vanilla.cpp: operator()"]}
{"id": "C83", "title": "Finite difference prices of calls and puts are close to the Black-Scholes price and converge to it", "statement": "calculatePrice() of a new finite difference solver (implicit Euler with the Thomas algorithm, explicit Euler, or Crank-Nicolson; linear or quadratic interpolation) for a BlackScholesPDE of a European call or put returns a value whose distance from the Black-Scholes price is at most an explicit bound in the volatility, the rates, the maturity, the strike, the spot, the domain and the two step sizes. For implicit Euler the price converges to the Black-Scholes price when the domain grows and the steps become small, although the payoff has a kink and the boundary values that the program sets are wrong.", "quantifier": "all volatilities, rates, dividend rates, strikes, spots and maturities with |r - c| <= sigma^2 and r >= 0, all domains containing the spot, all grids with two cells below the spot and all sufficiently small time steps; for explicit Euler and Crank-Nicolson all grids with non-negative weights", "why_tests_cant": "A test compares one price on one grid with a tolerance chosen by hand. It cannot show that the error becomes small for every market and grid, nor that the wrong boundary values do no harm in the limit.", "anchors": ["src/solver/finite_difference_method/solver/one_factor/base_fdm_solver.cpp: solve, calculatePrice", "src/solver/finite_difference_method/solver/one_factor/euler_implicit_fdm_solver.cpp: calculateInnerDomain", "src/solver/finite_difference_method/solver/one_factor/euler_explicit_fdm_solver.cpp: calculateInnerDomain", "src/solver/finite_difference_method/solver/one_factor/crank_nicolson_fdm_solver.cpp: calculateInnerDomain", "src/solver/finite_difference_method/pde/one_factor/black_scholes_pde.cpp: boundaryLeft, boundaryRight, initialCondition"]}
{"id": "C84", "title": "Finite difference prices of digital options converge", "statement": "calculatePrice() of a new finite difference solver (implicit Euler, explicit Euler or Crank-Nicolson; linear or quadratic interpolation) for a BlackScholesPDE of a digital call or put returns a value within an explicit bound of the discounted probability of ending above or below the strike. The bound becomes small when the domain grows and the steps become small, although the payoff jumps and the boundary values that the program sets are those of an ordinary call or put.", "quantifier": "all volatilities, rates, dividend rates, strikes, spots and maturities with |r - c| <= sigma^2 and r >= 0, all domains containing the spot, all grids with two cells below the spot and all sufficiently small time steps; for explicit Euler and Crank-Nicolson all grids with non-negative weights", "why_tests_cant": "A test looks at one price on one grid. It cannot show that a jump in the payoff and wrong boundary values do no harm in the limit for every market.", "anchors": ["src/solver/finite_difference_method/solver/one_factor/base_fdm_solver.cpp: solve, calculatePrice", "src/solver/finite_difference_method/pde/one_factor/black_scholes_pde.cpp: boundaryLeft, boundaryRight, initialCondition", "src/payoff/single_strike/payoff_digital.cpp: operator()"]}
{"id": "C85", "title": "Finite difference prices in double precision", "statement": "In IEEE double precision, calculatePrice() of a new explicit Euler solver with linear interpolation for a BlackScholesPDE of a European call or put returns a number whose distance from the result of exact arithmetic with the same number of time steps is at most (N + J)(X + K)/2^36, where N is the number of time levels, J the number of nodes, X the width of the grid and K the strike. It therefore returns the Black-Scholes price up to this and the bound of C83, for the maturity at which the computed time loop ends: T, or one time step later. Compared with the Black-Scholes price for the maturity T of the option itself, the bound grows by at most (r K + S e^(|c|(T + k)) (|c| + sigma / (4 sqrt T))) k, where k is the time step.", "quantifier": "all volatilities, rates, dividend rates, strikes, spots, maturities and grids of moderate size with |r - c| <= sigma^2, r >= 0 and non-negative weights, and all spots at least two cells above 0 and one cell below X", "why_tests_cant": "A test compares one price with a tolerance. It cannot show that no market and no grid lets the rounding errors of millions of operations grow, and the error cannot be measured without an exact computation.", "anchors": ["src/solver/finite_difference_method/solver/one_factor/base_fdm_solver.cpp: solve, calculatePrice", "src/solver/finite_difference_method/solver/one_factor/euler_explicit_fdm_solver.cpp: calculateInnerDomain, calculateBoundaryConditions", "src/solver/finite_difference_method/pde/one_factor/black_scholes_pde.cpp: boundaryLeft, boundaryRight, initialCondition"]}
{"id": "C86", "title": "A failing finite difference solver says so, touches nothing else and can be called again", "statement": "If solve() returns, every function of the PDE could be evaluated at all nodes and time levels the scheme uses. If solve() throws, the exception was thrown by the PDE at such a point or by the matrix solver, the solver is not marked as solved, and calculatePrice() throws the same exception. An option whose stock is unknown, or whose payoff has no strike, makes every call throw. No call of the solver changes the market data or notifies observers. A call that succeeds after a failed one returns what it would have returned without the failed one.", "quantifier": "all arithmetics, PDEs, schemes, matrix solvers, grids, market data and histories of calls", "why_tests_cant": "A test provokes one exception at one place. It cannot show that no evaluation on any grid is skipped or its exception lost, nor that every history of calls leaves the market data alone.", "anchors": ["src/solver/finite_difference_method/solver/one_factor/base_fdm_solver.cpp: solve, calculatePrice", "src/solver/finite_difference_method/solver/one_factor/euler_explicit_fdm_solver.cpp: calculateInnerDomain, calculateBoundaryConditions", "src/solver/finite_difference_method/solver/one_factor/euler_implicit_fdm_solver.cpp: calculateInnerDomain", "src/solver/finite_difference_method/solver/one_factor/crank_nicolson_fdm_solver.cpp: calculateInnerDomain", "src/solver/finite_difference_method/pde/one_factor/black_scholes_pde.cpp: diffusion, boundaryLeft, boundaryRight"]}
{"id": "C87", "title": "Finite difference grids with fewer than two nodes or time levels are refused", "statement": "A solver constructed with fewer than two nodes or fewer than two time levels, for which there is no step size, reports an error. It does not return prices, loop forever or cause undefined behaviour.", "quantifier": "all schemes, PDEs, grids and maturities", "why_tests_cant": "A test tries a few sizes. That solve() never returns cannot be observed, and undefined behaviour may look like success.", "anchors": ["src/solver/finite_difference_method/solver/one_factor/base_fdm_solver.cpp: FDMSolver, solve", "src/solver/finite_difference_method/solver/one_factor/euler_explicit_fdm_solver.cpp: EulerExplicitFDM, calculateBoundaryConditions", "src/solver/finite_difference_method/solver/one_factor/euler_implicit_fdm_solver.cpp: EulerImplicitFDM", "src/solver/finite_difference_method/solver/one_factor/crank_nicolson_fdm_solver.cpp: CrankNicolsonFDMSolver"]}
{"id": "C88", "title": "Path-dependent and digital prices in double precision differ from exact arithmetic only by rounding errors", "statement": "A session that prices a lookback, Asian, barrier or digital option on a GBM in double precision returns a finite number: the discounted mean of what the contract pays on the exact paths for the same normal numbers, up to an explicit bound made of the rounding errors of the paths, of the averages and extremes, of the payoffs and of the mean over the paths. For barrier and digital options no exact price may be so close to the barrier or strike that rounding could put it on the other side.", "quantifier": "all comfortable market data (prices on the paths stay away from overflow and underflow), contracts, numbers of dates and of paths, and all normal numbers, as long as no exact price leaves [e^-300, e^300]", "why_tests_cant": "A test compares single runs with a reference within a tolerance chosen by hand. It cannot show that no path, number of dates or moneyness loses more digits, or that a call of max, min, log or exp never spoils the result.", "anchors": ["src/solver/monte_carlo/mc_lookback.cpp: LookbackMCPricer::calculatePrice, computePayoff", "src/solver/monte_carlo/mc_asian.cpp: AsianMCPricer::calculatePrice, computeSumPrices, computeAveragePrice", "src/solver/monte_carlo/mc_barrier.cpp: BarrierMCPricer::calculatePrice, checkHasCrossed", "src/solver/monte_carlo/mc_single_path.cpp: SinglePathMCPricer::calculatePrice", "src/model/gbm_model.cpp: simulatePrices", "src/option/path_dependent/barrier_option.cpp: isActive"]}
{"id": "C89", "title": "Lookback and Asian prices in double precision approach the discounted expected payoff", "statement": "A session that prices a lookback or Asian option on a GBM in double precision, with normal numbers close to those of a perfect generator, returns a finite number near the discounted expected payoff of the contract: the probability of a larger difference than epsilon plus an explicit rounding gap is at most the variance over N epsilon squared, plus the probability of a rare draw. For puts on averages and minima the bound is exponential in N. For geometric Asian options the expected payoff is the closed formula.", "quantifier": "all comfortable market data (prices on the paths stay away from overflow and underflow), strikes, numbers of dates and of paths, all perfect generators and all generators in doubles close to one, all accuracies epsilon > 0", "why_tests_cant": "Tests run a few seeds and compare with a reference within a hand-picked tolerance. The claim is about the law of the price over all seeds and about rounding on every path.", "anchors": ["src/solver/monte_carlo/mc_lookback.cpp: LookbackMCPricer::calculatePrice", "src/solver/monte_carlo/mc_asian.cpp: AsianMCPricer::calculatePrice", "src/solver/monte_carlo/mc_solver.cpp: MCSolver::solve", "src/model/gbm_model.cpp: simulatePrices"]}
{"id": "C90", "title": "Barrier and digital prices in double precision approach the discounted expected payoff", "statement": "A session that prices a barrier or digital option on a GBM in double precision, with normal numbers close to those of a perfect generator, returns a finite number near the discounted expected payoff of the contract. These contracts jump at the barrier or strike, so rounding could change a payoff completely; the bound on the probability of a larger error counts the paths that come so near to the jump that this is possible. For digital options the expected payoff is the closed formula.", "quantifier": "all comfortable market data (prices on the paths stay away from overflow and underflow) with a non-zero volatility, all strikes, barriers and directions, numbers of dates and of paths, all perfect generators and all generators in doubles close to one, all accuracies epsilon > 0", "why_tests_cant": "No test can visit all paths, and the dangerous ones, a rounding error away from the barrier, have a tiny probability: a test would hardly ever meet one, and could not tell how often they occur.", "anchors": ["src/solver/monte_carlo/mc_barrier.cpp: BarrierMCPricer::calculatePrice, checkHasCrossed, computePayoff", "src/solver/monte_carlo/mc_single_path.cpp: SinglePathMCPricer::calculatePrice", "src/solver/monte_carlo/mc_solver.cpp: MCSolver::solve", "src/model/gbm_model.cpp: simulatePrices", "src/option/path_dependent/barrier_option.cpp: isActive"]}
{"id": "C91", "title": "The Thomas algorithm is accurate in double precision", "statement": "For a tridiagonal system whose diagonal dominates every row, ThomasAlgorithm::solve in double precision returns finite numbers. They satisfy every equation up to 2^-45 U W and are within 2^-45 (U/L) W of the true solution and of the result of the same code in exact arithmetic. Here U bounds the diagonal, L is the least excess of a diagonal entry over the rest of its row, and W bounds the solution.", "quantifier": "all tridiagonal systems of 2 to 2^31 + 1 equations with a dominant diagonal, with U/L up to 2^43 and U, L, W between 2^-500 and 2^500", "why_tests_cant": "The error of each row passes into all later rows, and back again in the back substitution; tests see only some systems of some sizes, and cannot show that the errors never grow with the number of equations.", "anchors": ["src/numerical_analysis/linear_algebra/matrix_solver/thomas_algorithm.cpp: ThomasAlgorithm::solve"]}
{"id": "C92", "title": "Implicit Euler prices of European options in double precision approach the Black-Scholes price", "statement": "For a European call or put, implicit Euler with the Thomas algorithm and linear interpolation, run in double precision, returns a finite number within implicitRounding = (N + T(sigma^2 J^2 + r) + J)(X + K)/2^34 of the same run in exact arithmetic, and within the grid error plus implicitRounding of the Black-Scholes price for the maturity at which the computed time loop ends: T or one time step later. The time step need not be short compared with the square of the space step. Compared with the Black-Scholes price for the maturity T of the option itself, the bound grows by at most (r K + S e^(|c|(T + k)) (|c| + sigma / (4 sqrt T))) k, where k is the time step.", "quantifier": "all volatilities, rates, yields, strikes, prices, maturities and grids of moderate size (ModerateImplicit: J and N up to 2^20, |r - c| <= sigma^2, one step times the largest coefficient at most 2^16); for calls r k <= 1", "why_tests_cant": "Every step solves a linear system whose coefficients, right hand side and solution are rounded, and feeds the result into the next step; no finite set of runs shows that the errors add up and do not grow exponentially for other grids.", "anchors": ["src/solver/finite_difference_method/solver/one_factor/base_fdm_solver.cpp: solve, calculatePrice", "src/solver/finite_difference_method/solver/one_factor/euler_implicit_fdm_solver.cpp: calculateInnerDomain, calculateBoundaryConditions", "src/solver/finite_difference_method/pde/one_factor/black_scholes_pde.cpp: boundaryLeft, boundaryRight, initialCondition", "src/numerical_analysis/linear_algebra/matrix_solver/thomas_algorithm.cpp: ThomasAlgorithm::solve"]}
{"id": "C93", "title": "Crank-Nicolson prices of European options in double precision approach the Black-Scholes price", "statement": "For a European call or put, Crank-Nicolson with the Thomas algorithm and linear interpolation, run in double precision, returns a finite number within cnRounding = (N + J)(X + K)/2^33 of the same run in exact arithmetic, and within the grid error plus cnRounding of the Black-Scholes price for the maturity at which the computed time loop ends: T or one time step later. The solves inside the assembly loop, which divide 0 by 0, leave no trace in the result. Compared with the Black-Scholes price for the maturity T of the option itself, the bound grows by at most (r K + S e^(|c|(T + k)) (|c| + sigma / (4 sqrt T))) k, where k is the time step.", "quantifier": "all volatilities, rates, yields, strikes, prices, maturities and grids of moderate size (ModerateCN: J and N up to 2^20, |r - c| <= sigma^2, the weights of the explicit half of the scheme are not negative); for calls r k <= 1", "why_tests_cant": "Every step solves a sequence of linear systems, most of them singular, in rounded arithmetic and feeds the last result into the next step; no finite set of runs shows that no NaN survives and that the errors add up and do not grow exponentially for other grids.", "anchors": ["src/solver/finite_difference_method/solver/one_factor/base_fdm_solver.cpp: solve, calculatePrice", "src/solver/finite_difference_method/solver/one_factor/crank_nicolson_fdm_solver.cpp: calculateInnerDomain, calculateBoundaryConditions", "src/solver/finite_difference_method/pde/one_factor/black_scholes_pde.cpp: boundaryLeft, boundaryRight, initialCondition", "src/numerical_analysis/linear_algebra/matrix_solver/thomas_algorithm.cpp: ThomasAlgorithm::solve"]}
{"id": "C94", "title": "inv_cdf in double precision inverts the normal distribution function to within six ten-billionths", "statement": "For every double q strictly between 0 and 1, down to the smallest subnormal number and up to the largest double below 1, inv_cdf run in double precision returns a finite z with |Phi(z) - q| <= 6e-10; |z| never exceeds 51, and not 10 for q >= 2^-65. For q > 1/2 the result at 1 - q is the same number with the opposite sign, bit for bit. A Sobol or Faure generator whose coordinate is p at the scale c delivers a z with |Phi(z) - p/c| <= 7e-10, as long as p/c is at most 1 - 2^-53; with 64-bit coordinates k up to 2^64 - 2^14, which are not exact as doubles, |Phi(z) - k/2^64| <= 8e-10. The normal numbers obtained from all coordinates 1..M-1 of a scale M <= 2^53 have the standard normal law up to 7e-10 + 1/M at every point.", "quantifier": "all doubles between 0 and 1; all scales and coordinates, all states of the generator; every x", "why_tests_cant": "There are about 2^62 doubles between 0 and 1; near the seam of the two branches the rounded bound 0.42 decides, in the tail two logarithms and nine rounded coefficients add their errors. A test samples points.", "anchors": ["src/random/distribution/standard_normal_distribution.cpp: inv_cdf", "src/random/number_generator/sobol_quasi_random_generator.cpp: SobolGenerator::operator()", "src/random/number_generator/faure_quasi_random_generator.cpp: FaureGenerator::operator()"]}
{"id": "C95", "title": "Quasi Monte Carlo prices in double precision are the mean over the quasi-random points, and for a put and a digital option the Black-Scholes price up to the discrepancy", "statement": "A Sobol or Faure generator run in double precision delivers, point after point and coordinate after coordinate, normal numbers z with |Phi(z) - p/c| <= 7e-10 and |z| <= 10, where p/c is the coordinate of the point. The price that the engine then computes in double precision for a European, arithmetic or geometric Asian, fixed or floating strike lookback option, and for a knock-in or knock-out option none of whose exact prices lies within rounding distance of the barrier, is the discounted mean of the payoffs on the exact Black-Scholes paths built from those z, up to an explicit error of the size of the rounding. With one date, a put is priced at the Black-Scholes price up to e^(-rT) K (D + 7e-10) and a digital call or put at the discounted probability up to e^(-rT) (D + 7e-10), each plus rounding, where D is the star discrepancy of the points used.", "quantifier": "every sequence of points with coordinates between 2^-64 and 1 - 2^-53 of the scale, every seed, dimension and number of paths up to INT_MAX; all comfortable market data with |r T| <= 1, all strikes up to 2^500, all barriers", "why_tests_cant": "The error bound is relative to all point sets and all parameters; a test compares one price with one tolerance, which neither separates the error of the points from that of the arithmetic nor says that it holds for the next number of paths.", "anchors": ["src/random/number_generator/sobol_quasi_random_generator.cpp: SobolGenerator::operator()", "src/random/number_generator/faure_quasi_random_generator.cpp: FaureGenerator::operator()", "src/random/distribution/standard_normal_distribution.cpp: inv_cdf", "src/model/gbm_model.cpp: GeometricBrownianMotionModel::simulatePrices", "src/solver/monte_carlo/mc_single_path.cpp", "src/solver/monte_carlo/mc_asian.cpp", "src/solver/monte_carlo/mc_barrier.cpp", "src/solver/monte_carlo/mc_lookback.cpp"]}
{"id": "C96", "title": "Finite difference prices of digital options in double precision approach the discounted probability", "statement": "For a European digital call or put, a Black-Scholes equation and a grid of moderate size, the finite difference solver run in IEEE double precision with explicit Euler, implicit Euler or Crank-Nicolson (with the Thomas algorithm) and linear interpolation returns a finite number. That number is within an explicit bound of the discounted probability of ending in the money at the maturity of the option. The bound consists of the grid error (of the order of the time step and the square of the space step for a fixed width delta), the effect of the jump over a width of 10 delta on each side of the strike, the boundary error, the change of the price over the one time step by which the computed loop may end late, and a rounding error. A node that lies at the strike may get the payoff of the other side because the computed node is rounded; the bound covers that.", "quantifier": "every digital option, all market data with |r - c| <= sigma^2 and 0 <= r, every grid of moderate size with at least 4 nodes, X + K >= 1, each of the three schemes, every delta between (X + K) / 2^49 and K / 20, any content of freshly allocated memory", "why_tests_cant": "A test prices one digital option on one grid and compares with a tolerance chosen for it. Whether a node next to the strike falls on the right side depends on the rounding of that grid, so another grid size gives another error; only a bound for all grids settles it.", "anchors": ["src/solver/finite_difference_method/solver/one_factor/base_fdm_solver.cpp: solve, calculatePrice", "src/solver/finite_difference_method/solver/one_factor/euler_explicit_fdm_solver.cpp: calculateInnerDomain", "src/solver/finite_difference_method/solver/one_factor/euler_implicit_fdm_solver.cpp: calculateInnerDomain", "src/solver/finite_difference_method/solver/one_factor/crank_nicolson_fdm_solver.cpp: calculateInnerDomain", "src/solver/finite_difference_method/pde/one_factor/black_scholes_pde.cpp: boundaryLeft, boundaryRight, initialCondition", "src/payoff/single_strike/payoff_digital.cpp: operator()"]}
{"id": "C97", "title": "Simulated prices have the law of the continuous time model for any number of time steps", "statement": "With a perfect random number generator the price simulated at a date t has the law of S exp(Y_t). In geometric Brownian motion Y is a Brownian motion with drift r - q - sigma^2/2; in the variance gamma model it is a Brownian motion on a gamma clock plus a drift; in Merton's and Kou's models it is a Brownian motion plus jumps at the times of a Poisson process. These laws do not mention the time step: simulating with more or fewer steps changes no expected payoff at maturity. In Merton's and Kou's models the number of jumps per step is an int that saturates at INT_MAX, so the expectation of a payoff between 0 and M is that of the continuous time model up to M lambda t / 2^31. The parameters of the laws are those the code uses; where they differ from the textbook see C63.", "quantifier": "all parameters accepted by the constructors (for Merton and Kou lambda > 0, for Kou eta1 > 1 and eta2 > 0), all spots, rates, yields, all positive maturities (for geometric Brownian motion also zero), all numbers of steps up to INT_MAX, all dates on the path, every generator whose draws are independent with the requested laws", "why_tests_cant": "A statement about the law of a random variable for all numbers of steps; samples with two step sizes only show that a difference is below the statistical error.", "anchors": ["src/model/gbm_model.cpp: simulatePriceAtMaturity, simulatePrices", "src/model/merton_jump_diffusion_model.cpp", "src/model/kou_model.cpp", "src/model/variance_gamma_model.cpp", "include/model/base_model.h"]}
{"id": "C98", "title": "Monte Carlo put prices in Merton's model estimate Merton's series", "statement": "For a European put in Merton's jump diffusion model the average of the price returned by the single path Monte Carlo pricer is the price given by Merton's series (an average of Black-Scholes prices over the number of jumps) for the market data, and its variance is at most the squared discounted strike over the number of paths.", "quantifier": "all market data, all jump parameters with lambda > 0 accepted by the constructor, all strikes and maturities, all numbers of steps and paths up to INT_MAX", "why_tests_cant": "The expectation is over all random numbers; a test compares one sample with a tolerance for one set of parameters, and cannot tell a small bias from noise.", "anchors": ["src/model/merton_jump_diffusion_model.cpp", "src/solver/monte_carlo/mc_single_path.cpp", "src/payoff/single_strike/payoff_vanilla.cpp: operator()"]}
{"id": "C99", "title": "In double precision the paths of Merton's, Kou's and the variance gamma model are those of exact arithmetic for the same draws", "statement": "For whatever numbers the generator delivers, simulatePrices of Merton's, Kou's and the variance gamma model returns positive finite prices, one per date, and each differs from the price in exact arithmetic for the same draws by at most 2^-49 times the price times a sum over the steps of one plus the size of the exponent. The size counts the absolute values of drift, diffusion and jumps, the jumps times their number, because the code adds them up one after the other.", "quantifier": "all market data, model parameters and time steps of moderate size, all draws with exact prices between exp(-300) and exp(300), any number of steps up to INT_MAX, any number of jumps per step up to INT_MAX, every rounding with relative error 2^-53 and every exponential function with relative error 2^-52", "why_tests_cant": "The bound must hold for every sequence of random numbers and any number of steps and jumps; a test has no exact reference path and sees a few seeds.", "anchors": ["src/model/merton_jump_diffusion_model.cpp: simulatePrices", "src/model/kou_model.cpp: simulatePrices", "src/model/variance_gamma_model.cpp: simulatePrices"]}
{"id": "C100", "title": "In double precision a model that its constructor accepts simulates positive prices", "statement": "If the constructor of Kou's or the variance gamma model accepts its parameters, then the correction it stores is the exact one up to rounding and the simulated prices of moderate paths are positive numbers. The code violates this in two places: Kou's model accepts eta1 = 1, where the mean jump factor divides by zero, and the variance gamma model accepts parameters for which the argument of the logarithm is not positive. In both cases every simulated price is 0 or NaN whatever is drawn, and so is the Monte Carlo price of every call, without any exception.", "quantifier": "all parameters accepted by the constructors, all market data, all maturities, any number of steps, every generator and every sequence of draws, every rounding; for the positive part all parameters with eta1 at least 1 + 2^-52, or with a computed positive argument of the logarithm", "why_tests_cant": "Whether a parameter set is harmless must hold for every path the generator can produce; a test with a harmless parameter set never sees the division by zero.", "anchors": ["src/model/kou_model.cpp: KouModel::KouModel, simulatePrices", "src/model/variance_gamma_model.cpp: VarianceGammaModel::VarianceGammaModel, simulatePrices"]}
{"id": "C101", "title": "In double precision a session on a model with jumps returns the discounted mean over the exact paths", "statement": "A session on Merton's, Kou's or the variance gamma model returns a finite number: the discounted mean of what the option pays on the exact paths for the same random numbers, up to a stated error per path and the rounding of the mean. This holds for European, digital, double digital, lookback (fixed and floating strike), Asian (arithmetic and geometric), knock-in and knock-out options.", "quantifier": "all market data and option parameters of moderate size, calls and puts, any number of dates and paths up to INT_MAX, every engine, every number of jumps per step and every sequence of draws whose exact paths stay within exp(-300) and exp(300); digital and barrier options: no exact price within rounding distance of the strike or barrier", "why_tests_cant": "The error must be bounded for every path the engine can produce and any number of jumps; a test compares a few prices with a tolerance chosen by hand.", "anchors": ["src/model/merton_jump_diffusion_model.cpp: simulatePrices", "src/model/kou_model.cpp: KouModel::simulatePrices", "src/model/variance_gamma_model.cpp: VarianceGammaModel::simulatePrices", "src/solver/monte_carlo/mc_single_path.cpp: SinglePathMCPricer::calculatePrice", "src/solver/monte_carlo/mc_lookback.cpp: LookbackMCPricer::calculatePrice, computePayoff", "src/solver/monte_carlo/mc_asian.cpp: AsianMCPricer::calculatePrice", "src/solver/monte_carlo/mc_barrier.cpp: BarrierMCPricer::calculatePrice"]}
{"id": "C102", "title": "Expected Monte Carlo prices of calls and puts satisfy put-call parity and allow no arbitrage", "statement": "With ideal random numbers the expected Monte Carlo prices of a call and a put with strike K satisfy call - put = S exp(-qT) - K exp(-rT) and lie within the no-arbitrage bounds, in geometric Brownian motion and in every Heston model that can be constructed, for any number of time steps and paths. Arithmetic Asian options satisfy the same with the mean of the forward prices. Merton's and Bates' models violate it whenever a jump changes the expected price, Kou's and the variance gamma model except for special parameters: parity holds there with a forward price that is off by a stated factor.", "quantifier": "all positive spots, all rates, yields and volatilities, all non-negative strikes and maturities, any positive number of steps and paths up to INT_MAX, all model parameters the constructors accept, every generator whose draws are independent with the right laws", "why_tests_cant": "The expectation over all random numbers cannot be observed in a test; a simulated call and put differ from parity by sampling noise that hides a wrong drift.", "anchors": ["src/solver/monte_carlo/mc_single_path.cpp: SinglePathMCPricer::calculatePrice", "src/solver/monte_carlo/mc_asian.cpp: AsianMCPricer::calculatePrice", "src/model/heston_model.cpp: HestonModel::simulatePrices", "src/model/merton_jump_diffusion_model.cpp: simulatePrices", "src/payoff/single_strike/payoff_vanilla.cpp: PayoffVanilla::operator()"]}
{"id": "C103", "title": "Expected prices rise with volatility and maturity, and an Asian call costs no more than a European one", "statement": "With ideal random numbers the expected Monte Carlo price of a call or a put does not fall when the volatility rises, in geometric Brownian motion, Merton's and Kou's model. In geometric Brownian motion without dividends and with a non-negative rate the expected price of a call does not fall when the maturity grows. With a rate not below the dividend yield an arithmetic Asian call costs on average no more than the European call with the same strike, in geometric Brownian motion and in every Heston model that can be constructed.", "quantifier": "all positive spots, rates, yields, strikes and pairs of volatilities or maturities, any positive number of steps and paths up to INT_MAX (for the Brownian model different ones in the two runs), two arbitrary generators whose draws are independent with the right laws", "why_tests_cant": "The ordering holds between expectations; two simulated prices may come out in either order, and a test compares a few parameter pairs.", "anchors": ["src/model/gbm_model.cpp: GeometricBrownianMotionModel::simulatePrices", "src/model/merton_jump_diffusion_model.cpp: simulatePrices", "src/model/kou_model.cpp: KouModel::simulatePrices", "src/model/heston_model.cpp: HestonModel::simulatePrices", "src/solver/monte_carlo/mc_single_path.cpp: SinglePathMCPricer::calculatePrice", "src/solver/monte_carlo/mc_asian.cpp: AsianMCPricer::calculatePrice"]}
{"id": "C104", "title": "More monitoring dates make a knock-out option no dearer and a knock-in option no cheaper", "statement": "With ideal random numbers in geometric Brownian motion, and in the variance gamma model wherever its drift correction is defined and its simulated prices have an expectation, multiplying the number of time steps by a whole number does not raise the expected Monte Carlo price of a knock-out call or put and does not lower that of a knock-in call or put, for barriers in either direction.", "quantifier": "all positive spots, all rates, yields, volatilities, strikes and barriers, non-negative maturities (positive ones for variance gamma), any positive n and m with m*n at most INT_MAX steps, any positive numbers of paths up to INT_MAX in the two runs, two arbitrary generators whose draws are independent with the right laws", "why_tests_cant": "The two runs use different random paths, so their prices may come out in either order; the ordering holds only between expectations, over every refinement of the dates.", "anchors": ["src/model/gbm_model.cpp: GeometricBrownianMotionModel::simulatePrices", "src/model/variance_gamma_model.cpp: simulatePrices", "src/solver/monte_carlo/mc_barrier.cpp: calculatePrice", "src/payoff/single_strike/payoff_vanilla.cpp: PayoffVanilla::operator()"]}
