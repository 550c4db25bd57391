import Verif.Model.Control

/-!
# Distributions and number generators (`/repo/src/random`)
-/

namespace Verif

/-- A `Distribution` object: its class and parameters (include/random/distribution/*.h). -/
inductive Dist (F : Type)
  | stdNormal
  | normal (mu sigma : F)
  | poisson (lambda : F)
  | uniform (a b : F)
  | exponential (lambda : F)
  | gamma (alpha beta : F)
  deriving DecidableEq, Repr

namespace Dist
variable {F : Type} [Fl F]

/-- `NormalDistribution::NormalDistribution` (normal_distrib.cpp:5-9). -/
def mkNormal (mu sigma : F) : Res (Dist F) :=
  if Fl.le sigma (lit 0) then invalidArg "sigma must be positive" else .ok (normal mu sigma)

/-- `PoissonDistribution::PoissonDistribution` (poisson_distrib.cpp:5-10). -/
def mkPoisson (lambda : F) : Res (Dist F) :=
  if Fl.le lambda (lit 0) then invalidArg "lambda must be positive" else .ok (poisson lambda)

/-- `ContinuousUniformDistribution::ContinuousUniformDistribution`
(continuous_uniform_distrib.cpp:4-8).  The sampler `uniform_dist_` is default constructed
(continuous_uniform_distrib.h:19), so `a` and `b` do not influence the draws: see `law`. -/
def mkUniform (a b : F) : Res (Dist F) :=
  if Fl.ge a b then invalidArg "a must lower than b" else .ok (uniform a b)

/-- `ExponentialDistribution::ExponentialDistribution` (exponential_distr.cpp:5-9). -/
def mkExponential (lambda : F) : Res (Dist F) :=
  if Fl.le lambda (lit 0) then invalidArg "lambda must be positive" else .ok (exponential lambda)

/-- `GammaDistribution::GammaDistribution` (gamma_distrib.cpp:5-10). -/
def mkGamma (alpha beta : F) : Res (Dist F) :=
  if Fl.le alpha (lit 0) || Fl.le beta (lit 0) then
    invalidArg "alpha (shape) and beta (rate) parameters must be positive"
  else .ok (gamma alpha beta)

/-- The standard library distributions held by the objects, with their parameters. -/
inductive StdLaw (F : Type)
  | normal (mean stddev : F)
  | poisson (mean : F)
  | uniform (a b : F)
  | exponential (lambda : F)
  | gamma (shape scale : F)
  deriving DecidableEq, Repr

/-- The `std::` distribution an object samples from (standard_normal_distribution.cpp:6,
normal_distrib.cpp:6, poisson_distrib.cpp:6, continuous_uniform_distrib.h:19 - default constructed,
that is [0, 1) -, exponential_distr.cpp:6, gamma_distrib.cpp:6). -/
def law [Div F] : Dist F → StdLaw F
  | stdNormal => .normal (lit 0) (lit 1)
  | normal mu sigma => .normal mu sigma
  | poisson lambda => .poisson lambda
  | uniform _ _ => .uniform (lit 0) (lit 1)
  | exponential lambda => .exponential lambda
  | gamma alpha beta => .gamma alpha (lit 1 / beta)

end Dist

section
variable {F : Type} [Fl F] [Add F] [Sub F] [Mul F] [Div F] [Neg F]

/-- The central branch of `StandardNormalDistribution::inv_cdf`
(standard_normal_distribution.cpp:49-50). -/
def moroCentral (x : F) : F :=
  let r := x * x
  let a0 : F := lit (250662823884 / 100000000000)
  let a1 : F := lit (-1861500062529 / 100000000000)
  let a2 : F := lit (4139119773534 / 100000000000)
  let a3 : F := lit (-2544106049637 / 100000000000)
  let b0 : F := lit (-847351093090 / 100000000000)
  let b1 : F := lit (2308336743743 / 100000000000)
  let b2 : F := lit (-2106224101826 / 100000000000)
  let b3 : F := lit (313082909833 / 100000000000)
  x * (((a3 * r + a2) * r + a1) * r + a0) / ((((b3 * r + b2) * r + b1) * r + b0) * r + lit 1)

/-- The polynomial of the tail branch (standard_normal_distribution.cpp:57). -/
def moroTailPoly (r : F) : F :=
  let c0 : F := lit (3374754822726147 / 10000000000000000)
  let c1 : F := lit (9761690190917186 / 10000000000000000)
  let c2 : F := lit (1607979714918209 / 10000000000000000)
  let c3 : F := lit (276438810333863 / 10000000000000000)
  let c4 : F := lit (38405729373609 / 10000000000000000)
  let c5 : F := lit (3951896511919 / 10000000000000000)
  let c6 : F := lit (321767881768 / 10000000000000000)
  let c7 : F := lit (2888167364 / 10000000000000000)
  let c8 : F := lit (3960315187 / 10000000000000000)
  c0 + r * (c1 + r * (c2 + r * (c3 + r * (c4 + r * (c5 + r * (c6 + r * (c7 + r * c8)))))))

/-- `StandardNormalDistribution::inv_cdf` (standard_normal_distribution.cpp:10-61). -/
def moroInvCdf (quantile : F) : Res F :=
  if Fl.le quantile (lit 0) || Fl.ge quantile (lit 1) then
    invalidArg "quantile must be between (0,1)"
  else
    let sup := Fl.gt quantile (lit (1 / 2))
    let up := if sup then lit 1 - quantile else quantile
    let x := up - lit (1 / 2)
    if Fl.lt (Fl.fabs x) (lit (42 / 100)) then
      let r := moroCentral x
      .ok (if sup then -r else r)
    else
      let r := moroTailPoly (Fl.log (-(Fl.log up)))
      .ok (if sup then r else -r)

/-- `inv_cdf` of the distribution classes; all but the standard normal throw `logic_error`
(normal_distrib.cpp:13-15, poisson_distrib.cpp:14-16, continuous_uniform_distrib.cpp:12-14,
exponential_distr.cpp:13-15, gamma_distrib.cpp:14-16). -/
def Dist.invCdf : Dist F → F → Res F
  | .stdNormal, q => moroInvCdf q
  | .normal _ _, _ => logicErr "Inverse CDF for Normal Distribution nor implemented yet."
  | .poisson _, _ => logicErr "Inverse CDF is not implemented yes for Poisson Distribution"
  | .uniform _ _, _ => logicErr "Inverse CDF for Uniform Distribution not implemented yet."
  | .exponential _, _ => logicErr "Inverse CDF for Normal Distribution nor implemented yet."
  | .gamma _ _, _ => logicErr "Inverse CDF for Gamma Distribution not implemented yet."

end

/-- What a stock model uses of a `NumberGenerator` (include/random/number_generator/base_generator.h)
over generator states `G`: `draw` is `operator()(dist)`, `newDist` is the construction of a local
distribution object (some `std::` distributions save a second variate inside the object; a new
object has none; the saved variates are regarded as part of the state `G`). -/
structure Gen (G F : Type) where
  draw : Dist F → Eff G F
  newDist : Dist F → G → G

/-- A `std::mt19937` together with the sampling algorithms of the standard library: arbitrary.
`default` is the state after default construction, `seeded s` after construction with a seed,
`sample` is `distribution(engine)`. -/
structure Engine (E F : Type) where
  default : E
  seeded : Nat → E
  sample : Dist.StdLaw F → E → F × E
  forget : Dist.StdLaw F → E → E

namespace Pseudo
variable {E F : Type}

/-- The members of `PseudoRandomNumberGenerator` (base_generator.h:20-21,
pseudo_random_generator.h:16). -/
structure State (E : Type) where
  dim : Nat
  seed : Nat
  engine : E
  deriving Repr

/-- `PseudoRandomNumberGenerator(dim, seed)` (inherited constructor base_generator.cpp:11-16; the
check `seed_ < 0` on an unsigned never fires).  The member `generator_` is default constructed: the
seed is stored but does not reach it. -/
def construct (e : Engine E F) (dim seed : Nat) : State E :=
  { dim := dim, seed := seed, engine := e.default }

/-- `PseudoRandomNumberGenerator(dim)` (base_generator.cpp:5-9): the seed comes from
`std::random_device`, here the argument `rd`. -/
def constructRd (e : Engine E F) (dim rd : Nat) : State E :=
  { dim := dim, seed := rd, engine := e.default }

variable [Fl F] [Div F]

/-- `PseudoRandomNumberGenerator::operator()` (pseudo_random_generator.cpp:7-9):
`dist(generator_)`. -/
def draw (e : Engine E F) (d : Dist F) : Eff (State E) F := fun s =>
  let (x, eng) := e.sample d.law s.engine
  (.ok x, { s with engine := eng })

/-- The pseudo random generator as a `Gen`. -/
def gen (e : Engine E F) : Gen (State E) F where
  draw := draw e
  newDist d s := { s with engine := e.forget d.law s.engine }

end Pseudo

namespace Quasi
variable {Q F : Type}

/-- A Sobol or Faure sequence from Boost (not part of /repo, hence arbitrary): `seeded dim s` is
construction with dimension `dim` followed by `seed(s)`, `generate q` gives the coordinates of the
next point (both may throw), `scale` is `static_cast<double>(max())`. -/
structure Sequence (Q F : Type) where
  seeded : Nat → Nat → Res Q
  generate : Eff Q (List F)
  scale : F

/-- The members of `SobolGenerator` / `FaureGenerator` (base_generator.h:20-21,
base_quasi_random_generator.h:17-18, sobol_quasi_random_generator.h:20,
faure_quasi_random_generator.h:20). -/
structure State (Q F : Type) where
  dim : Nat
  seed : Nat
  step : Nat
  point : List F
  seq : Q
  deriving Repr

/-- The constructors `(dim, seed)` (base_generator.cpp:11-16, base_quasi_random_generator.cpp:10-13,
sobol_quasi_random_generator.cpp:11-16, faure_quasi_random_generator.cpp:11-16): the sequence is
seeded and the first point generated.  The checks `seed_ < 0`, `dim_ < 0` on unsigned numbers never
fire.  The constructors `(dim)` are the same with a seed from `std::random_device`. -/
def construct (q : Sequence Q F) (dim seed : Nat) : Res (State Q F) := do
  let s0 ← q.seeded dim seed
  match q.generate s0 with
  | (.ok p, s1) => .ok { dim := dim, seed := seed, step := 0, point := p, seq := s1 }
  | (.throw e, _) => .throw e
  | (.ub, _) => .ub

variable [Fl F] [Add F] [Sub F] [Mul F] [Div F] [Neg F]

/-- The first lines of `operator()`: a new point when all coordinates of the current one are used
(sobol_quasi_random_generator.cpp:21-24, faure_quasi_random_generator.cpp:21-24).  A throwing
`generate` leaves `point_` as it was (simplification: Boost may have written a part of it). -/
def refill (q : Sequence Q F) : Eff (State Q F) Unit := fun s =>
  if s.dim ≤ s.step then
    match q.generate s.seq with
    | (.ok p, s1) => (.ok (), { s with point := p, seq := s1, step := 0 })
    | (.throw e, s1) => (.throw e, { s with seq := s1 })
    | (.ub, s1) => (.ub, { s with seq := s1 })
  else (.ok (), s)

/-- The rest of `operator()` (sobol_quasi_random_generator.cpp:27-29,
faure_quasi_random_generator.cpp:27-29): the next coordinate, scaled; `++step_` (an `int`: overflow
is undefined behaviour); then the inverse distribution function. -/
def emit (q : Sequence Q F) (d : Dist F) : Eff (State Q F) F := fun s =>
  match vget s.point s.step with
  | .ok u =>
    if s.step < INT_MAX then (d.invCdf (u / q.scale), { s with step := s.step + 1 }) else (.ub, s)
  | .throw e => (.throw e, s)
  | .ub => (.ub, s)

/-- `SobolGenerator::operator()` (sobol_quasi_random_generator.cpp:20-30) and
`FaureGenerator::operator()` (faure_quasi_random_generator.cpp:20-30). -/
def draw (q : Sequence Q F) (d : Dist F) : Eff (State Q F) F := do
  refill q
  emit q d

/-- The quasi random generators as a `Gen`; `inv_cdf` uses no state of the distribution object. -/
def gen (q : Sequence Q F) : Gen (State Q F) F where
  draw := draw q
  newDist _ s := s

end Quasi
end Verif
