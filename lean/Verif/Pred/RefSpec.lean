import Verif.Pred.Model

/-!
# A reference predictor

How the parts of the predictor work together, without arrays, indexers, pending states and reuse: every estimator, mixer
and map is its own value, found by a key. The parts themselves (estimators, mixers, maps, tables, byte cache, history
sources) are specified by their own properties. A prediction does not change anything; what has to be remembered until
the bit is known is in `Opinion` and `Verdict`.
-/

namespace Verif.Pred

open Verif Verif.Fixed Verif.Lut Verif.Mix Verif.Util Verif.History Verif.Tree

/-- everything that learns -/
structure Ref where
  /-- order; class of the number of occurrences, unfinished byte -/
  edgeEst : Nat → List Nat → Nat
  /-- order; class of the length of the last run, its bit -/
  nodeEst : Nat → List Nat → Nat
  /-- order; whether it is the longest context, relation to the shorter context, class of the distance, repeated bit -/
  edgeMix : Nat → List Nat → Mixer
  /-- order; whether it is the longest context, relation to the shorter context, class of the costs, class of the
  distance, class of the length of the opposite run -/
  nodeMix : Nat → List Nat → Mixer
  /-- number of bytes hashed; hash. The values at the 25 stops. -/
  maps : Nat → Nat → List Nat
  /-- class of the number of contexts -/
  last : Nat → Mixer

/-- a function changed at one point -/
def put {α β : Type} [DecidableEq α] (f : α → β) (a : α) (v : β) : α → β := fun x => if x = a then v else f x

/-- a function of two arguments changed at one point -/
def put2 {α β γ : Type} [DecidableEq α] [DecidableEq β] (f : α → β → γ) (a : α) (b : β) (v : γ) : α → β → γ :=
  fun x y => if x = a ∧ y = b then v else f x y

/-- at the start all estimators are fresh, all mixers of the orders trust their first input, all maps are neutral -/
def refNew (t : Tables) : Option Ref := do
  let e ← Est.decNew
  let m4 ← fixedNew 4 10 .dominantFirst
  let m3 ← fixedNew 3 10 .dominantFirst
  let a ← apmNew 1 0 t.squash
  some ⟨fun _ _ => e, fun _ _ => e, fun _ _ => m4, fun _ _ => m3, fun _ _ => a.mappings,
    fun i => (mixerNNew (i + 2) 100 .equalSummingToOne).getD ⟨[], 0, 0⟩⟩

/-! ## One order -/

/-- class of a distance -/
def distClass (d : Nat) : Nat := [100, 1000, 10000].countP fun x => decide (x ≤ d)

/-- class of a pair of costs -/
def costClass (c : Costs) : Nat :=
  [decide (c.2 ≤ c.1 + c.1 / 2), decide (c.2 ≤ c.1 + c.1 / 8), decide (c.2 ≤ c.1), decide (c.2 + c.2 / 8 ≤ c.1),
    decide (c.2 + c.2 / 2 ≤ c.1)].count true

/-- class of a number of occurrences -/
def countClass (n : Nat) : Nat := (quantize n).getD 0

/-- relation to the state of the next shorter context: 1 when it has the same statistics, 2 when it has seen both bits
and this one has not -/
def relation : Option CtxState → CtxState → Nat
  | some (.edge _ n _), .edge _ n' _ => if n = n' then 1 else 0
  | some (.node _ e _ _ _), .node _ e' _ _ _ => if e = e' then 1 else 0
  | some (.node _ _ _ _ _), .edge _ _ _ => 2
  | _, _ => 0

/-- a probability with its stretched form -/
def stretched (t : Tables) (p : Nat) : Option Prob := do
  let st ← stretch t.stretch p
  some (p, st)

/-- the probability of an estimator -/
def estOpinion (t : Tables) (e : Nat) : Option Prob := stretched t (Est.decPrediction e)

/-- the opinion of one order -/
structure Opinion where
  prob : Prob
  estKey : List Nat
  mixKey : List Nat
  mixer : Mixer

/-- pass all inputs to a mixer -/
def consult (t : Tables) (m : Mixer) (inputs : List Prob) : Option (Prob × Mixer) := do
  let m ← setInputs m (inputs.mapIdx fun i p => (i, p.1, p.2))
  let r ← mixAll t.squash m
  some (r, m)

/-- the opinion of order `o` about the next bit; `u` is the unfinished byte, `lower` the opinion of the lower orders -/
def opinion (t : Tables) (R : Ref) (o : Nat) (longest : Bool) (rel u : Nat) (lower : Prob) : CtxState → Option Opinion
  | .edge dist count bit => do
    let estKey := [countClass count, u]
    let mixKey := [longest.toNat, rel, distClass dist, bit.toNat]
    let run ← Est.for0BitRun t.direct count
    let high ← squash t.squash (2 * 2 ^ 21)
    let own ← estOpinion t (R.edgeEst o estKey)
    let (r, m) ← consult t (R.edgeMix o mixKey) [lower, run, (high, 2 * 2 ^ 21), own]
    some ⟨r, estKey, mixKey, m⟩
  | .node dist e _ runs costs => do
    let estKey := [countClass (State.runsLast runs), (State.runsLastBit runs).toNat]
    let mixKey := [longest.toNat, rel, costClass costs, distClass dist, countClass (State.runsOpposite runs)]
    let ctx ← estOpinion t e
    let own ← estOpinion t (R.nodeEst o estKey)
    let (r, m) ← consult t (R.nodeMix o mixKey) [lower, ctx, own]
    some ⟨r, estKey, mixKey, m⟩

/-- the opinions of the orders from `o` on: every order is told the opinion of the order below -/
def opinions (t : Tables) (R : Ref) (u : Nat) : Nat → Option CtxState → List CtxState → Prob → Option (List Opinion)
  | _, _, [], _ => some []
  | o, previous, s :: ss, lower => do
    let op ← opinion t R o ss.isEmpty (relation previous s) u lower s
    let ops ← opinions t R u (o + 1) (some s) ss op.prob
    some (op :: ops)

/-- the opinion of the highest order; even chances when no context is known -/
def conclusion (ops : List Opinion) : Prob := ((ops.map Opinion.prob).getLast?).getD (2 ^ 30, 0)

/-- order `o` learns: the estimator and the mixer that were asked, nothing else. The costs of a node are updated with
what the context and its run said. -/
def learnOrder (t : Tables) (R : Ref) (o : Nat) (op : Opinion) (bit : Bool) : CtxState → Option (Ref × List Costs)
  | .edge _ _ _ => do
    let e ← Est.decUpdate t.rates (R.edgeEst o op.estKey) bit
    let m ← updateAndReset t.rates op.mixer bit op.prob.1 300
    some ({ R with edgeEst := put2 R.edgeEst o op.estKey e, edgeMix := put2 R.edgeMix o op.mixKey m }, [])
  | .node _ est _ _ costs => do
    let own := R.nodeEst o op.estKey
    let c ← costsUpdated t costs (Est.decPrediction est) (Est.decPrediction own) bit
    let e ← Est.decUpdate t.rates own bit
    let m ← updateAndReset t.rates op.mixer bit op.prob.1 100
    some ({ R with nodeEst := put2 R.nodeEst o op.estKey e, nodeMix := put2 R.nodeMix o op.mixKey m }, [c])

/-- the orders from `o` on learn -/
def learnOrders (t : Tables) (bit : Bool) : Ref → Nat → List CtxState → List Opinion → Option (Ref × List Costs)
  | R, o, s :: ss, op :: ops => do
    let (R, c) ← learnOrder t R o op bit s
    let (R, cs) ← learnOrders t bit R (o + 1) ss ops
    some (R, c ++ cs)
  | R, _, _, _ => some (R, [])

/-! ## The final stage -/

/-- the last bytes, hashed: the unfinished byte and its hashes with the one, two, three bytes before it -/
def hashes (lb : LB) : Option (List Nat) := do
  let u ← lbUnfinished lb
  let h1 ← lbHash01 lb
  let h2 ← lbHash02 lb
  let h3 ← lbHash03 lb
  some [u, h1, h2, h3]

/-- a map for one context -/
def single (values : List Nat) : Apm := ⟨values, 0, 1, -1, 0⟩

/-- what a map said: key, probability, map -/
structure Mapped where
  k : Nat
  hash : Nat
  prob : Nat
  apm : Apm

/-- ask map `k` -/
def askMap (t : Tables) (R : Ref) (hs : List Nat) (k : Nat) (p : Prob) : Option Mapped := do
  let h ← hs[k]?
  let lut ← apmLut t 0
  let (r, a) ← refine (single (R.maps k h)) 0 p.1 p.2 lut
  some ⟨k, h, r, a⟩

/-- ask several maps -/
def askMaps (t : Tables) (R : Ref) (hs : List Nat) (p : Prob) : List Nat → Option (List Mapped)
  | [] => some []
  | k :: ks => do
    let a ← askMap t R hs k p
    let as ← askMaps t R hs p ks
    some (a :: as)

/-- what the maps said, as inputs of a mixer -/
def mapInputs (t : Tables) : List Mapped → Option (List Prob)
  | [] => some []
  | a :: as => do
    let p ← stretched t a.prob
    let ps ← mapInputs t as
    some (p :: ps)

/-- a quarter, rounded -/
def quartered (n : Nat) : Nat := (n + 2) / 4

/-- rounded to 23 bits, neither impossible nor certain -/
def finish (p : Nat) : Nat := max 1 (min (2 ^ 23 - 1) ((p + 2 ^ 7) / 2 ^ 8))

/-- class of the number of contexts -/
def contextsClass (n : Nat) : Nat := min 3 (n - 1)

/-- the outcome of the final stage: probability, the maps that were asked, the mixer (number, result, mixer) -/
structure Verdict where
  prob : Nat
  maps : List Mapped
  mixer : Option (Nat × Nat × Mixer)

/-- the final stage. `light`: a quarter of map 0 is mixed in, then maps 1 to 3 are averaged with weights 1, 2, 1.
`adaptive`: a mixer is told the conclusion, map 0 and as many further maps as there are contexts beyond the first. -/
def verdict (t : Tables) (mode : Mode) (R : Ref) (hs : List Nat) (p : Prob) (count : Nat) : Option Verdict :=
  match mode with
  | .none => some ⟨finish p.1, [], none⟩
  | .light => do
    let a0 ← askMap t R hs 0 p
    let mid ← stretched t (quartered (3 * p.1 + a0.prob))
    let a1 ← askMap t R hs 1 mid
    let a2 ← askMap t R hs 2 mid
    let a3 ← askMap t R hs 3 mid
    some ⟨finish (quartered (a1.prob + 2 * a2.prob + a3.prob)), [a0, a1, a2, a3], none⟩
  | .adaptive => do
    let a0 ← askMap t R hs 0 p
    let mid ← stretched t (quartered (3 * p.1 + a0.prob))
    let as ← askMaps t R hs mid ([1, 2, 3].take (contextsClass count))
    let inputs ← mapInputs t (a0 :: as)
    let (r, m) ← consult t (R.last (contextsClass count)) (p :: inputs)
    some ⟨finish r.1, a0 :: as, some (contextsClass count, r.1, m)⟩

/-- the maps learn, at rate 5; with equal weights for both neighbouring stops in mode `light` -/
def learnMaps (fixed bit : Bool) : Ref → List Mapped → Option Ref
  | R, [] => some R
  | R, a :: as => do
    let b ← updatePredictions a.apm 0 bit 5 fixed
    learnMaps fixed bit { R with maps := put2 R.maps a.k a.hash b.mappings } as

/-- the final stage learns -/
def learnVerdict (t : Tables) (mode : Mode) (R : Ref) (v : Verdict) (bit : Bool) : Option Ref := do
  let R ← learnMaps (decide (mode = .light)) bit R v.maps
  match v.mixer with
  | none => some R
  | some (i, p, m) => do
    let m ← updateAndReset t.rates m bit p 1000
    some { R with last := put R.last i m }

/-! ## All together -/

/-- the reference predictor: history source, last bytes, what has been learned -/
structure RefState (σ : Type) where
  src : σ
  lb : LB
  ref : Ref

/-- before the first bit of a byte -/
def refReady {σ : Type} (src : Source σ) (n : Nat) (x : RefState σ) : Option (RefState σ) :=
  if n % 8 = 0 then do
    let s ← src.start x.src
    let lb ← lbStart x.lb
    some { x with src := s, lb := lb }
  else some x

/-- one bit: the prediction made before it, and the state after it -/
def refBit {σ : Type} (t : Tables) (mode : Mode) (src : Source σ) (x : RefState σ) (bit : Bool) :
    Option (Nat × RefState σ) := do
  let states ← src.gather x.src
  let hs ← hashes x.lb
  let u ← hs[0]?
  let ops ← opinions t x.ref u 0 none states (2 ^ 30, 0)
  let v ← verdict t mode x.ref hs (conclusion ops) states.length
  let (R, costs) ← learnOrders t bit x.ref 0 states ops
  let R ← learnVerdict t mode R v bit
  let s ← src.process x.src bit costs
  let lb ← lbNext x.lb bit
  some (v.prob, ⟨s, lb, R⟩)

/-- the predictions for the bits of a file, when `n` bits have been read before -/
def refRun {σ : Type} (t : Tables) (mode : Mode) (src : Source σ) : Nat → RefState σ → List Bool →
    Option (List Nat × RefState σ)
  | _, x, [] => some ([], x)
  | n, x, b :: bits => do
    let x ← refReady src n x
    let (f, x) ← refBit t mode src x b
    let (fs, x) ← refRun t mode src (n + 1) x bits
    some (f :: fs, x)

/-- the predictions of the reference predictor -/
def refPredictions {σ : Type} (t : Tables) (mode : Mode) (src : Source σ) (s0 : Option σ) (bits : List Bool) :
    Option (List Nat) := do
  let s ← s0
  let R ← refNew t
  let (fs, _) ← refRun t mode src 0 ⟨s, lbNew, R⟩ bits
  some fs

end Verif.Pred
