import Verif.History.Model
import Verif.Est.Props
import Verif.State.Props
import Verif.Log2.Props

/-!
# Specification of context histories, in terms of the plain sequence of input bits

`hist` is the list of all bits of the input so far, most significant bit of each byte first. The context
of order `k` is made of the last `k` whole bytes and the bits of the byte in progress.
-/

namespace Verif.History

/-- length in bits of the context of order `k` -/
def ctxLen (hist : List Bool) (k : Nat) : Nat := 8 * k + hist.length % 8

/-- the bits of the context of order `k` -/
def context (hist : List Bool) (k : Nat) : List Bool := hist.drop (hist.length - ctxLen hist k)

/-- the bytes at which the context of order `k` has occurred before, oldest first: the context has to
start on a byte boundary, match all bits, and be followed by another bit -/
def occs (hist : List Bool) (k : Nat) : List Nat :=
  (List.range (hist.length / 8 - k)).filter fun i =>
    (hist.drop (8 * i)).take (ctxLen hist k) = context hist k

/-- the bit that followed the occurrence at byte `i` -/
def nextBit (hist : List Bool) (k i : Nat) : Bool := hist.getD (8 * i + ctxLen hist k) false

/-- the bits that followed the occurrences, oldest first -/
def following (hist : List Bool) (k : Nat) : List Bool := (occs hist k).map (nextBit hist k)

/-- length of the leading run of equal bits -/
def leadRun (bits : List Bool) : Nat := State.headRun bits

/-- the sequence with its leading run truncated to 1000 bits: only so much of it is remembered -/
def capRun (bits : List Bool) : List Bool := bits.drop (leadRun bits - 1000)

/-- the state of a context after the bits `bits`, last seen at distance `d`. `costs` is what the cost
trackers hold unless the last bit was the first to differ. -/
def specState (costTable : List Nat) (d : Nat) (bits : List Bool) (costs : Costs) : Option CtxState :=
  if bits = [] then none
  else if leadRun bits = bits.length then
    some (.edge d (min bits.length 1000) (bits.headD false))
  else do
    let est ← Est.replay (capRun bits)
    let first ← Log2.costForNewNode costTable (min (leadRun bits) 1000)
    some (.node d est (Bits.enc (Bits.lastN 15 bits)) (State.specWord bits)
      (if bits.length = leadRun bits + 1 then (first, first) else costs))

/-- the distance, in bytes, from the current context of order `k` to its last occurrence -/
def lastDist (hist : List Bool) (k : Nat) : Nat :=
  hist.length / 8 - k - (occs hist k).getLastD 0

/-- what a history source should report -/
def specGather (costTable : List Nat) (maxOrder : Nat) (hist : List Bool) : Option (List CtxState) :=
  ((List.range (maxOrder + 1)).filter fun k => occs hist k ≠ []).mapM fun k =>
    specState costTable (lastDist hist k) (following hist k) costsDefault

/-- tables as built by `LookUpTables::new` -/
structure LutsOk (luts : Luts) : Prop where
  rates : Est.ratesDefault = some luts.rates
  cache : Est.cacheNew luts.rates = some luts.cache
  costs : ∃ log2, Log2.log2LutNew = some log2 ∧ Log2.costLutNew log2 luts.rates = some luts.costs

end Verif.History
