import Verif.Interp.Model
import Mathlib.Data.List.Pairwise
import Mathlib.Algebra.BigOperators.Group.List.Basic

/-!
Specification of the operators of the interpreter: the relational algebra on lists of tuples, with SQL's treatment of
NULL.  `Sem p o`: the list `o` is a correct result of the plan `p`.
-/
namespace Mutable.Interp

variable {T V : Type}

/-- The values of the argument of an aggregate that are not NULL. -/
def argVals (arg : T → Option ℚ) (ts : List T) : List ℚ := ts.filterMap arg

/-- `v` is the value of the aggregate on the tuples `ts` (SQL semantics; `none` is NULL). -/
def AggSpec (a : Agg T) (ts : List T) (v : Option ℚ) : Prop :=
  match a with
  | .countStar => v = some (ts.length : ℚ)
  | .count arg => v = some ((argVals arg ts).length : ℚ)
  | .sum arg => if argVals arg ts = [] then v = none else v = some (argVals arg ts).sum
  | .avg arg => if argVals arg ts = [] then v = none else v = some ((argVals arg ts).sum / (argVals arg ts).length)
  | .min arg => if argVals arg ts = [] then v = none else ∃ x ∈ argVals arg ts, v = some x ∧ ∀ y ∈ argVals arg ts, x ≤ y
  | .max arg => if argVals arg ts = [] then v = none else ∃ x ∈ argVals arg ts, v = some x ∧ ∀ y ∈ argVals arg ts, y ≤ x

/-- `a` is strictly before `b` with respect to one key. -/
def Key.before (k : Key T) (a b : T) : Prop :=
  match k with
  | .int f true => f a < f b
  | .int f false => f b < f a
  | .str f true => f a < f b
  | .str f false => f b < f a

/-- `a` and `b` agree on the key. -/
def Key.same (k : Key T) (a b : T) : Prop :=
  match k with
  | .int f _ => f a = f b
  | .str f _ => f a = f b

/-- `a` may precede `b` in a result ordered by the keys: lexicographic order. -/
def InOrder : List (Key T) → T → T → Prop
  | [], _, _ => True
  | k :: ks, a, b => k.before a b ∨ (k.same a b ∧ InOrder ks a b)

/-- SQL equality of key lists is TRUE: no component is NULL and all are equal. -/
def SqlEq (a b : List (Option V)) : Prop := none ∉ a ∧ none ∉ b ∧ a = b

/-- The cartesian product. -/
def tuplesOf : List (List T) → List (List T)
  | [] => [[]]
  | B :: Bs => B.flatMap fun t => (tuplesOf Bs).map fun c => t :: c

open Classical in
mutual
/-- `o` is a correct result of the plan. -/
def Sem : Plan T V → List T → Prop
  | .scan rows, o => o = rows
  | .filter p c, o => ∃ i, Sem c i ∧ o = i.filter fun t => p t = some true
  | .dfilter ps c, o => ∃ i, Sem c i ∧ o = i.filter fun t => ∃ p ∈ ps, p t = some true
  | .proj f c, o => ∃ i, Sem c i ∧ o = i.map f
  | .proj0 t, o => o = [t]
  | .limit lim off c, o => ∃ i, Sem c i ∧ o = (i.drop off).take lim
  | .sort ks c, o => ∃ i, Sem c i ∧ o.Perm i ∧ o.Pairwise (InOrder ks)
  | .group key aggs mk _ c, o => ∃ i, Sem c i ∧ ∃ gs : List (List (Option V) × List (Option ℚ)),
      (gs.map Prod.fst).Nodup ∧ (∀ k, k ∈ gs.map Prod.fst ↔ ∃ t ∈ i, key t = k) ∧
      (∀ g ∈ gs, List.Forall₂ (fun a v => AggSpec a (i.filter fun t => key t = g.1) v) aggs g.2) ∧
      o = gs.map fun g => mk g.1 g.2
  | .agg aggs mk c, o => ∃ i, Sem c i ∧ ∃ vs, List.Forall₂ (fun a v => AggSpec a i v) aggs vs ∧ o = [mk vs]
  | .hash kb kp _ comb _ b p, o => ∃ ib ip, Sem b ib ∧ Sem p ip ∧
      o.Perm (ip.flatMap fun t => (ib.filter fun v => SqlEq (kb v) (kp t)).map fun v => comb v t)
  | .nlj ls pred comb r, o => ∃ bs ir, SemList ls bs ∧ Sem r ir ∧
      o.Perm (ir.flatMap fun t => ((tuplesOf bs).filter fun c => ∀ p ∈ pred, p c t = some true).map fun c => comb c t)
/-- Correct results of a list of plans. -/
def SemList : Plans T V → List (List T) → Prop
  | .nil, bs => bs = []
  | .cons p ps, bs => ∃ i is, Sem p i ∧ SemList ps is ∧ bs = i :: is
end

/-! ### Restrictions -/

/-- The aggregate is computed correctly by the interpreter on these tuples: for SUM there must be a value, for AVG no
argument may be NULL. -/
def Agg.Supported (a : Agg T) (ts : List T) : Prop :=
  match a with
  | .sum arg => argVals arg ts ≠ []
  | .avg arg => ts ≠ [] ∧ ∀ t ∈ ts, arg t ≠ none
  | _ => True

open Classical in
mutual
/-- Plans the interpreter executes correctly.  `keeps`: the consumers of the plan's result leave the mask of the blocks
as it is, up to the next pipeline breaker.  `cl` is `Tuple::clone`: it leaves a tuple as it is only if the tuple
contains no NULL (`cloneTuple_eq`). -/
def Ok (cl : T → T) : Bool → Plan T V → Prop
  | _, .scan _ => True
  | _, .filter _ c => Ok cl false c
  | _, .dfilter _ c => Ok cl false c
  | _, .proj _ c => Ok cl true c
  | _, .proj0 _ => True
  | _, .limit lim off c => off + lim < 2 ^ 64 ∧ Ok cl false c
  | _, .sort _ c => Ok cl true c ∧ ∀ i, Sem c i → ∀ t ∈ i, cl t = t
  | _, .group key aggs _ _ c => Ok cl true c ∧
      ∀ i, Sem c i → ∀ a ∈ aggs, ∀ t ∈ i, a.Supported (i.filter fun u => key u = key t)
  | _, .agg aggs _ c => Ok cl true c ∧ ∀ i, Sem c i → ∀ a ∈ aggs, a.Supported i
  | keeps, .hash kb kp _ _ _ b p => Ok cl true b ∧ Ok cl true p ∧
      (∀ ib, Sem b ib → ∀ v ∈ ib, none ∉ kb v ∧ cl v = v) ∧
      (keeps = true ∨ ∀ ib ip, Sem b ib → Sem p ip → ∀ t ∈ ip, (ib.filter fun v => kb v = kp t).length ≤ 64)
  | _, .nlj ls _ _ r => OkList cl ls ∧ Ok cl true r
def OkList (cl : T → T) : Plans T V → Prop
  | .nil => True
  | .cons p ps => Ok cl true p ∧ (∀ i, Sem p i → ∀ t ∈ i, cl t = t) ∧ OkList cl ps
end

/-- `std::sort`: for every strict weak order, the result is a sorted permutation. -/
def SortSpec (srt : (T → T → Bool) → List T → List T) : Prop :=
  ∀ lt : T → T → Bool, (∀ a, lt a a = false) → (∀ a b c, lt a b = true → lt b c = true → lt a c = true) →
    (∀ a b c, lt a b = false → lt b c = false → lt a c = false) →
    ∀ l, (srt lt l).Perm l ∧ (srt lt l).Pairwise fun a b => lt b a = false

end Mutable.Interp
