import Verif.PhysOpt.Once

/-!
# C58: the physical optimizer finds a cheapest covering of the logical plan

Specification: `Fits`, `Cov`, `covered`, `subops` in Spec.lean.  `cover`, `hasPlan`, `extractPlan` are
`PhysicalOptimizerImpl::cover`, `has_plan`, `extract_plan`.
-/

namespace Mutable.PhysOpt

variable {L K C : Type} [DecidableEq K]

/-! ## Numbering -/

/-- The operators of a plan have distinct ids, children smaller ones than their consumer, the root the largest; the
ids are the numbers below the size of the plan. -/
theorem C58_post_order_ids (plan : LOp L) :
    ((subops (assign 0 plan)).map IOp.id).Nodup ∧
    (assign 0 plan).id + 1 = plan.size ∧ (subops (assign 0 plan)).length = plan.size ∧
    (∀ o ∈ subops (assign 0 plan), o.id < plan.size) ∧
    (∀ o ∈ subops (assign 0 plan), ∀ q ∈ subopsList o.children, q.id < o.id) := by
  obtain ⟨h1, h2⟩ := subops_length 0 plan
  have hw := assign_WN 0 plan
  refine ⟨WN_nodup _ hw, by omega, h1, ?_, ?_⟩
  · intro o ho
    have := (sub_bounds _ hw o ho).2
    omega
  · intro o ho q hq
    have aux : ∀ (p : IOp L) (lo : Nat), WN lo p → ∀ q ∈ subopsList p.children, q.id < p.id := by
      intro p lo hp q hq
      cases p with
      | node i l cs =>
        simp only [WN] at hp
        exact (subList_bounds cs hp q hq).2
    obtain ⟨lo, hlo⟩ := WN_sub (assign 0 plan) hw o ho
    exact aux o lo hlo q hq

/-! ## The table -/

/-- Every entry of the plan table is a covering of its operator: patterns fit, pre-conditions are met, condition and
cost are the ones of the covering. -/
theorem C58_entries_are_coverings {S : Sig L K C} (hc : CostOK S) {ops : List (PhysOp L K C)}
    (ho : OpsOK S.isProd ops) (plan : LOp L) {o : IOp L} (hm : o ∈ subops (assign 0 plan))
    {e : Entry L K C} (he : e ∈ (cover S ops plan).getD o.id []) : Cov S ops o e.cond e.cost e.mtch :=
  ((cover_good hc ho plan).2 o hm).sound e he

/-- For every covering of every operator the table holds one with the same condition that is not more expensive; and
there is one entry per condition. -/
theorem C58_entries_are_optimal {S : Sig L K C} (hc : CostOK S) {ops : List (PhysOp L K C)}
    (ho : OpsOK S.isProd ops) (plan : LOp L) {o : IOp L} (hm : o ∈ subops (assign 0 plan)) :
    (∀ k c m, Cov S ops o k c m → ∃ e ∈ (cover S ops plan).getD o.id [], e.cond = k ∧ S.lt c e.cost = false) ∧
    (((cover S ops plan).getD o.id []).map (·.cond)).Nodup :=
  ⟨((cover_good hc ho plan).2 o hm).complete, ((cover_good hc ho plan).2 o hm).nodup⟩

/-! ## The plan -/

/-- `has_plan` is true iff the plan can be covered. -/
theorem C58_has_plan_iff {S : Sig L K C} (hc : CostOK S) {ops : List (PhysOp L K C)}
    (ho : OpsOK S.isProd ops) (plan : LOp L) :
    hasPlan (cover S ops plan) = true ↔ ∃ k c m, Cov S ops (assign 0 plan) k c m := by
  have hg := cover_last hc ho plan
  unfold hasPlan
  constructor
  · intro h
    cases hl : (cover S ops plan).getLastD [] with
    | nil => rw [hl] at h; simp at h
    | cons e es =>
      rw [hl] at hg
      exact ⟨_, _, _, hg.sound e List.mem_cons_self⟩
  · rintro ⟨k, c, m, h⟩
    obtain ⟨e, he, _⟩ := hg.complete k c m h
    cases hl : (cover S ops plan).getLastD [] with
    | nil => rw [hl] at he; cases he
    | cons e es => simp

/-- The extracted plan is a covering of the logical plan, and no covering – of any condition – is cheaper. -/
theorem C58_extracted_plan_is_cheapest {S : Sig L K C} (hc : CostOK S) {ops : List (PhysOp L K C)}
    (ho : OpsOK S.isProd ops) (plan : LOp L) {e : Entry L K C} (he : extractPlan S (cover S ops plan) = some e) :
    Cov S ops (assign 0 plan) e.cond e.cost e.mtch ∧
    ∀ k c m, Cov S ops (assign 0 plan) k c m → S.lt c e.cost = false := by
  have hg := cover_last hc ho plan
  have hb := bestLoop_spec hc ((cover S ops plan).getLastD []) none S.inf (by simp)
  unfold extractPlan at he
  rw [he] at hb
  simp only at hb
  obtain ⟨h1, h2, _, _⟩ := hb
  have hmem : e ∈ (cover S ops plan).getLastD [] := by rcases h1 with h | h; exact h; cases h
  refine ⟨hg.sound e hmem, ?_⟩
  intro k c m hcov
  obtain ⟨x, hx, _, hlt⟩ := hg.complete k c m hcov
  exact hc.negtrans _ _ _ hlt (h2 x hx)

/-- If there is a covering of finite cost, a plan is extracted. -/
theorem C58_plan_is_extracted {S : Sig L K C} (hc : CostOK S) {ops : List (PhysOp L K C)}
    (ho : OpsOK S.isProd ops) (plan : LOp L) {k c m} (hcov : Cov S ops (assign 0 plan) k c m)
    (hfin : S.lt c S.inf = true) : ∃ e, extractPlan S (cover S ops plan) = some e := by
  have hg := cover_last hc ho plan
  have hb := bestLoop_spec hc ((cover S ops plan).getLastD []) none S.inf (by simp)
  unfold extractPlan
  cases hr : bestLoop S ((cover S ops plan).getLastD []) none S.inf with
  | some e => exact ⟨e, rfl⟩
  | none =>
    exfalso
    rw [hr] at hb
    obtain ⟨x, hx, _, hlt⟩ := hg.complete k c m hcov
    have := hc.negtrans _ _ _ hlt (hb.2 x hx)
    rw [this] at hfin; cases hfin

/-- A covering – in particular the extracted plan – covers every operator of the logical plan exactly once. -/
theorem C58_covers_exactly_once {S : Sig L K C} {ops : List (PhysOp L K C)} {isLeaf : L → Bool}
    (hp : ∀ p ∈ ops, p.pat.leavesIn isLeaf) {op : IOp L} (hl : LeafOK isLeaf op) {k c m}
    (h : Cov S ops op k c m) : (covered ops m).Perm (subops op) :=
  Cov_once hp h hl

theorem C58_extracted_plan_covers_exactly_once {S : Sig L K C} (hc : CostOK S) {ops : List (PhysOp L K C)}
    (ho : OpsOK S.isProd ops) {isLeaf : L → Bool} (hp : ∀ p ∈ ops, p.pat.leavesIn isLeaf) (plan : LOp L)
    (hl : LeafOK isLeaf (assign 0 plan)) {e : Entry L K C} (he : extractPlan S (cover S ops plan) = some e) :
    (covered ops e.mtch).Perm (subops (assign 0 plan)) ∧ ((covered ops e.mtch).map IOp.id).Nodup := by
  have h := Cov_once hp (C58_extracted_plan_is_cheapest hc ho plan he).1 hl
  exact ⟨h, (h.map IOp.id).nodup_iff.mpr (C58_post_order_ids plan).1⟩

/-! ## The interpreter -/

/-- natural numbers with `∞` -/
def natSig (isProd : L → Bool) : Sig L Unit (Option Nat) where
  isProd := isProd
  implied := fun _ _ => true
  emptyK := ()
  add := fun a b => match a, b with
    | some a, some b => some (a + b)
    | _, _ => none
  lt := fun a b => match a, b with
    | some a, some b => decide (a < b)
    | some _, none => true
    | none, _ => false
  inf := none

theorem natSig_cost (isProd : L → Bool) : CostOK (natSig isProd) where
  irrefl := by intro a; cases a <;> simp [natSig]
  trans := by
    intro a b c
    cases a <;> cases b <;> cases c <;> simp [natSig] <;> omega
  negtrans := by
    intro a b c
    cases a <;> cases b <;> cases c <;> simp [natSig] <;> omega
  mono := by
    intro a b c d
    cases a <;> cases b <;> cases c <;> cases d <;> simp [natSig] <;> omega

theorem interpOps_get (kind : L → Kind) (k : Kind) : ∃ oi : Nat, (interpOps kind (some 1 : Option Nat))[oi]? =
    some (interpOp (decide (k = .scan)) (fun l => Kind.isA k (kind l)) (some 1)) := by
  cases k
  exacts [⟨0, rfl⟩, ⟨1, rfl⟩, ⟨2, rfl⟩, ⟨3, rfl⟩, ⟨4, rfl⟩, ⟨5, rfl⟩, ⟨6, rfl⟩, ⟨7, rfl⟩, ⟨8, rfl⟩, ⟨9, rfl⟩, ⟨10, rfl⟩,
    ⟨11, rfl⟩]

theorem interpOps_mem (kind : L → Kind) {p} (h : p ∈ interpOps kind (some 1 : Option Nat)) :
    ∃ k, p = interpOp (decide (k = .scan)) (fun l => Kind.isA k (kind l)) (some 1) := by
  unfold interpOps at h
  obtain ⟨k, _, rfl⟩ := List.mem_map.mp h
  exact ⟨k, rfl⟩

theorem interpOps_ok (kind : L → Kind) : OpsOK (fun l => (kind l).isProducer) (interpOps kind (some 1 : Option Nat)) where
  nowild := by
    intro p hp
    obtain ⟨k, rfl⟩ := interpOps_mem kind hp
    cases k <;> simp [interpOp]
  reads := by
    intro p hp
    obtain ⟨k, rfl⟩ := interpOps_mem kind hp
    intro op ns ss _ j sl _ t _ _
    rfl

/-- the operator classes of the interpreter with a leaf pattern are scans -/
theorem interpOps_leaves (kind : L → Kind) : ∀ p ∈ interpOps kind (some 1 : Option Nat),
    p.pat.leavesIn (fun l => decide (kind l = .scan)) := by
  intro p hp
  obtain ⟨k, rfl⟩ := interpOps_mem kind hp
  cases k <;> simp [interpOp, Pat.leavesIn, Kind.isA]
  exact fun l h => h.symm

theorem PreOK_true {emptyK : Unit} {pre : Nat → Unit} : ∀ {cs : List (IOp L)} {d i : Nat} {ks : List Unit},
    ks.length = cs.length → PreOK (fun _ _ => true) emptyK pre i (cs.map (fun c => (⟨some c, d⟩ : Slot L))) ks
  | [], _, _, [], _ => by simp [PreOK]
  | c :: cs, _, _, k :: ks, h => by
    simp only [List.map_cons, PreOK, true_and]
    exact PreOK_true (by simpa using h)

theorem totalCost_nat (isProd : L → Bool) (ns : List Nat) : ∀ n : Nat,
    totalCost (natSig isProd) (some n) (ns.map some) = some (n + ns.sum) := by
  induction ns with
  | nil => intro n; simp [totalCost]
  | cons x xs ih =>
    intro n
    have := ih (n + x)
    simp only [totalCost, List.map_cons, List.foldl_cons, List.sum_cons] at this ⊢
    rw [show (natSig isProd).add (some n) (some x) = some (n + x) from rfl, this]
    congr 1
    omega

mutual
theorem interp_cov (kind : L → Kind) : (op : IOp L) → LeafOK (fun l => decide (kind l = .scan)) op →
    ∃ m, Cov (natSig (fun l => (kind l).isProducer)) (interpOps kind (some 1)) op () (some (subops op).length) m
  | .node i l cs, hl => by
    obtain ⟨kids, hk, hcov, hcost⟩ := interp_covList kind cs (fun c hc => LeafOK_child (op := .node i l cs) hl hc)
    obtain ⟨oi, hoi⟩ := interpOps_get kind (kind l)
    have hself : Kind.isA (kind l) (kind l) = true := by simp [Kind.isA]
    have hlen : (kids.map (·.cond)).length = cs.length := by rw [← hk]; simp
    have hc : (some (subops (.node i l cs)).length : Option Nat) =
        totalCost (natSig (fun l => (kind l).isProducer)) (some 1) (kids.map (·.cost)) := by
      have hmm : cs.map (fun o => some (subops o).length) = (cs.map (fun o => (subops o).length)).map some := by
        rw [List.map_map]; rfl
      rw [hcost, hmm, totalCost_nat]
      congr 1
      simp only [subops, List.length_cons]
      rw [subopsList_sum]
      omega
    by_cases hs : kind l = .scan
    · have hcs : cs = [] := hl _ (mem_subops_self _) (by simp [IOp.lbl, hs])
      subst hcs
      have hkn : kids = [] := by simpa using hk
      subst hkn
      exact ⟨_, Cov.mk (kids := []) hoi
        (by rw [hs]; exact Fits.leaf (d := 0) (op := .node i l []) (by rw [hs] at hself; simp [IOp.lbl, hs, hself]))
        (by simp [kidsOf]) (by intro e he; cases he) (by simp [PreOK, natSig]) rfl hc⟩
    · refine ⟨_, Cov.mk (kids := kids) hoi
        (by
          rw [decide_eq_false hs]
          exact Fits.cons (d := 0) (op := .node i l cs) (by simpa [IOp.lbl] using hself))
        ?_ hcov ?_ rfl hc⟩
      · rw [hk]; simp [kidsOf, IOp.children, List.filterMap_map, Function.comp_def]
      · exact PreOK_true hlen
theorem interp_covList (kind : L → Kind) : (cs : List (IOp L)) →
    (∀ c ∈ cs, LeafOK (fun l => decide (kind l = .scan)) c) →
    ∃ kids : List (Kid L Unit (Option Nat)), kids.map (·.op) = cs ∧
      (∀ e ∈ kids, Cov (natSig (fun l => (kind l).isProducer)) (interpOps kind (some 1)) e.op e.cond e.cost e.mtch) ∧
      kids.map (·.cost) = cs.map (fun o => some (subops o).length)
  | [], _ => ⟨[], by simp⟩
  | c :: cs, h => by
    obtain ⟨m, hm⟩ := interp_cov kind c (h c List.mem_cons_self)
    obtain ⟨kids, h1, h2, h3⟩ := interp_covList kind cs (fun x hx => h x (List.mem_cons_of_mem _ hx))
    refine ⟨⟨c, (), some (subops c).length, m⟩ :: kids, by simp [h1], ?_, by simp [h3]⟩
    intro e he
    rcases List.mem_cons.mp he with rfl | he
    · exact hm
    · exact h2 e he
end

theorem kids_cost_eq {kids : List (Kid L Unit (Option Nat))}
    (h : ∀ e ∈ kids, e.cost = some (subops e.op).length) :
    kids.map (·.cost) = (kids.map (fun e => (subops e.op).length)).map some := by
  rw [List.map_map]
  exact List.map_congr_left h

theorem interp_cost (kind : L → Kind) {op k c m}
    (h : Cov (natSig (fun l => (kind l).isProducer)) (interpOps kind (some 1)) op k c m) :
    LeafOK (fun l => decide (kind l = .scan)) op → c = some (subops op).length := by
  induction h with
  | @mk oi p op ns ss kids k c h1 h2 h3 h4 h5 h6 h7 ih =>
    intro hl
    have hk := Fits_leafOK h2 hl
    have hcosts := kids_cost_eq (kids := kids) (fun e he => ih e he (hk e.op (by
      rw [← h3]; exact List.mem_map.mpr ⟨e, he, rfl⟩)))
    obtain ⟨kd, rfl⟩ := interpOps_mem kind (List.mem_of_getElem? h1)
    rw [h7, hcosts]
    rw [show (interpOp (decide (kd = .scan)) (fun l => Kind.isA kd (kind l)) (some 1 : Option Nat)).cost ns
      (kids.map (·.op)) = some 1 from rfl, totalCost_nat]
    congr 1
    rw [subops_eq op, List.length_cons, subopsList_sum]
    have : kidsOf ss = op.children := by
      by_cases hs : kd = .scan
      · rw [hs] at h2
        cases h2 with
        | leaf h =>
          have := hl op (mem_subops_self op) (by simpa [Kind.isA, eq_comm] using h)
          rw [this]; simp [kidsOf]
      · rw [decide_eq_false hs] at h2
        cases h2 with
        | cons h => simp [kidsOf, List.filterMap_map, Function.comp_def]
    rw [← this, ← h3, List.map_map, Nat.add_comm]
    rfl

/-- With the operators of the interpreter every logical plan (whose scans are leaves) gets a plan, one interpreter
operator per logical operator: the cost is the number of operators, and every operator is covered exactly once. -/
theorem C58_interpreter_always_has_plan (kind : L → Kind) (plan : LOp L)
    (hl : LeafOK (fun l => decide (kind l = .scan)) (assign 0 plan)) :
    ∃ e, extractPlan (natSig (fun l => (kind l).isProducer))
        (cover (natSig (fun l => (kind l).isProducer)) (interpOps kind (some 1)) plan) = some e ∧
      e.cost = some plan.size ∧
      (covered (interpOps kind (some 1)) e.mtch).Perm (subops (assign 0 plan)) := by
  obtain ⟨m, hm⟩ := interp_cov kind (assign 0 plan) hl
  have hcost := natSig_cost (fun l => (kind l).isProducer)
  have hops := interpOps_ok kind
  obtain ⟨e, he⟩ := C58_plan_is_extracted hcost hops plan hm (by simp [natSig])
  refine ⟨e, he, ?_, (C58_extracted_plan_covers_exactly_once hcost hops (interpOps_leaves kind) plan hl he).1⟩
  rw [interp_cost kind (C58_extracted_plan_is_cheapest hcost hops plan he).1 hl, (C58_post_order_ids plan).2.2.1]


/-! ## The option for the build side of the hash join -/

/-- The pattern `(JoinOperator, Wildcard, Wildcard)` is matched in both orders, and the roots of the children are
listed in the order of the match: `build`, `probe`. -/
theorem Fits_binary {isProd : L → Bool} {is : L → Bool} {op ns ss}
    (h : Fits isProd (.two is .wild .wild) 0 op ns ss) :
    ∃ a b, (op.children = [a, b] ∨ op.children = [b, a]) ∧ ns = [op, a, b] ∧ kidsOf ss = [a, b] := by
  cases h with
  | two h he h0 h1 =>
    cases h0
    cases h1
    exact ⟨_, _, he, rfl, rfl⟩

/-- `--hash-join-ordering-strategy` has no effect: whichever child of the join becomes the build side, the cost is the
same constant – the two permutations of a join always tie. -/
theorem C58_hash_join_ordering_option_has_no_effect {isProd : L → Bool} {is : L → Bool} (plan : LOp L) {op : IOp L}
    (hop : op ∈ subops (assign 0 plan)) {ns ss} (h : Fits isProd (.two is .wild .wild) 0 op ns ss) (u : Bool) :
    hashJoinCost .buildOnLeft u ns (kidsOf ss) = 10 + (if u then 0 else 1) ∧
    hashJoinCost .buildOnRight u ns (kidsOf ss) = 20 + (if u then 0 else 1) := by
  obtain ⟨a, b, he, rfl, hk⟩ := Fits_binary h
  rw [hk]
  have hab : a.id ≠ b.id := by
    have hw := assign_WN 0 plan
    obtain ⟨lo, hlo⟩ := WN_sub _ hw op hop
    have hnd := WN_nodup op hlo
    rw [subops_eq op, List.map_cons, List.nodup_cons] at hnd
    have h2 := hnd.2
    rcases he with he | he <;> rw [he] at h2 <;>
      simp only [subopsList, List.append_nil, List.map_append, List.nodup_append] at h2
    · exact h2.2.2 _ (List.mem_map.mpr ⟨a, mem_subops_self a, rfl⟩) _ (List.mem_map.mpr ⟨b, mem_subops_self b, rfl⟩)
    · exact (h2.2.2 _ (List.mem_map.mpr ⟨b, mem_subops_self b, rfl⟩) _
        (List.mem_map.mpr ⟨a, mem_subops_self a, rfl⟩)).symm
  simp [hashJoinCost, hab]

/-! ## Concrete optimizers -/

namespace Ex

/-- conditions: `0` none, `1` sorted, `2` unsatisfiable; `implied k o` is "`k` is implied by `o`" -/
def sig : Sig Kind Nat (Option Nat) where
  isProd := Kind.isProducer
  implied := fun k o => decide (k = 0) || decide (k = 1 ∧ o = 1)
  emptyK := 0
  add := (natSig (L := Kind) Kind.isProducer).add
  lt := (natSig (L := Kind) Kind.isProducer).lt
  inf := none

theorem sig_cost : CostOK sig :=
  let h := natSig_cost (L := Kind) Kind.isProducer
  { irrefl := h.irrefl, trans := h.trans, negtrans := h.negtrans, mono := h.mono }

def isK (k : Kind) : Kind → Bool := fun l => decide (l = k)

def phys (pat : Pat Kind) (pre : Nat → Nat) (cost : Nat) (post : Nat) : PhysOp Kind Nat (Option Nat) where
  pat := pat
  pre := fun i _ => pre i
  cost := fun _ _ => some cost
  post := fun _ _ => post
  adapt := fun _ _ k => k
  adapts := fun _ _ _ => 0

/-- scan, quicksort, sorting that relies on the order of its input, hash join, sort-merge join that sorts both sides
(its result is sorted), join fused with the sorting above it -/
def ops : List (PhysOp Kind Nat (Option Nat)) :=
  [ phys (.leaf (isK .scan)) (fun _ => 0) 1 0,
    phys (.cons (isK .sorting)) (fun _ => 0) 20 1,
    phys (.cons (isK .sorting)) (fun _ => 1) 0 1,
    phys (.two (isK .join) .wild .wild) (fun _ => 0) 5 0,
    phys (.two (isK .join) .wild .wild) (fun _ => 0) 17 1,
    phys (.one (isK .sorting) (.two (isK .join) .wild .wild)) (fun _ => 0) 18 1 ]

theorem ops_ok : OpsOK Kind.isProducer ops where
  nowild := by
    intro p hp
    simp only [ops, List.mem_cons, List.not_mem_nil, or_false] at hp
    rcases hp with rfl | rfl | rfl | rfl | rfl | rfl <;> simp [phys]
  reads := by
    intro p hp op ns ss _ j sl _ t _ _
    simp only [ops, List.mem_cons, List.not_mem_nil, or_false] at hp
    rcases hp with rfl | rfl | rfl | rfl | rfl | rfl <;> rfl

/-- `SELECT … FROM A, B … ORDER BY …` -/
def plan : LOp Kind := .node .sorting [.node .join [.node .scan [], .node .scan []]]

/-- the entries of the root: hash join + quicksort (27), merge join + no sorting (19), fused (20): 19 wins although
the cheapest covering of the join alone is the hash join -/
example : ((extractPlan sig (cover sig ops plan)).map (fun e => (e.cond, e.cost))) = some (1, some 19) := by
  decide +kernel

example : ((cover sig ops plan).getD 2 []).map (fun e => (e.cond, e.cost)) = [(0, some 7), (1, some 19)] := by
  decide +kernel

example : hasPlan (cover sig ops plan) = true := by decide +kernel

example : ((extractPlan sig (cover sig ops plan)).map (fun e => (covered ops e.mtch).map IOp.id)) = some [3, 2, 0, 1] := by
  decide +kernel

/-- hypotheses of `C58_extracted_plan_is_cheapest` are met, and its conclusion says that no covering costs less than 19 -/
example : ∀ k c m, Cov sig ops (assign 0 plan) k c m → sig.lt c (some 19) = false := by
  have h : ∃ e, extractPlan sig (cover sig ops plan) = some e ∧ e.cost = some 19 := by
    cases he : extractPlan sig (cover sig ops plan) with
    | none => exact absurd he (by decide +kernel)
    | some e =>
      refine ⟨e, rfl, ?_⟩
      have : (extractPlan sig (cover sig ops plan)).map (fun e => e.cost) = some (some 19) := by decide +kernel
      rw [he] at this
      simpa using this
  obtain ⟨e, he, hc⟩ := h
  rw [← hc]
  exact (C58_extracted_plan_is_cheapest sig_cost ops_ok plan he).2

/-- without a physical operator for the join there is no plan -/
example : hasPlan (cover sig (ops.take 3) plan) = false := by decide +kernel

example : LeafOK (fun l : Kind => decide (l = .scan)) (assign 0 plan) := by
  intro o ho
  simp [plan, assign, assignList, subops, subopsList] at ho
  rcases ho with rfl | rfl | rfl | rfl <;> simp [IOp.lbl, IOp.children]

/-- the interpreter on the same plan -/
example : (extractPlan (natSig Kind.isProducer) (cover (natSig Kind.isProducer) (interpOps id (some 1)) plan)).map
    (fun e => e.cost) = some (some 4) := by decide +kernel

/-- the two permutations of the join are found, with the same cost in both strategies -/
example : Fits Kind.isProducer (.two (isK .join) .wild .wild) 0 (assign 0 (.node .join [.node .scan [], .node .scan []]))
    [.node 2 .join [.node 0 .scan [], .node 1 .scan []], .node 1 .scan [], .node 0 .scan []]
    [⟨some (.node 1 .scan []), 1⟩, ⟨some (.node 0 .scan []), 2⟩] := by
  refine Fits.two (a := .node 1 Kind.scan []) (b := .node 0 Kind.scan []) (ns0 := [.node 1 Kind.scan []]) (ns1 := [.node 0 Kind.scan []])
    (ss0 := [⟨some (.node 1 Kind.scan []), 1⟩]) (ss1 := [⟨some (.node 0 Kind.scan []), 2⟩]) rfl (.inr rfl) ?_ ?_
  · exact Fits.wild rfl
  · exact Fits.wild rfl

end Ex

/-! ## What happens outside of the hypotheses -/

namespace NaN

/-- costs with a NaN (`none`): every comparison with it is false -/
def sig : Sig Kind Unit (Option Nat) where
  isProd := Kind.isProducer
  implied := fun _ _ => true
  emptyK := ()
  add := fun a b => match a, b with
    | some a, some b => some (a + b)
    | _, _ => none
  lt := fun a b => match a, b with
    | some a, some b => decide (a < b)
    | _, _ => false
  inf := some 1000000

def phys (pat : Pat Kind) (cost : Option Nat) : PhysOp Kind Unit (Option Nat) where
  pat := pat
  pre := fun _ _ => ()
  cost := fun _ _ => cost
  post := fun _ _ => ()
  adapt := fun _ _ k => k
  adapts := fun _ _ _ => ()

/-- a scan, a sort-merge join of an input with estimated cardinality `0` (`SortMergeJoin::cost`,
src/backend/WasmOperator.cpp:5282-5294: `std::log2(0.) * 0.` is NaN) and a nested-loops join -/
def ops : List (PhysOp Kind Unit (Option Nat)) :=
  [ phys (.leaf (· = .scan)) (some 0), phys (.two (· = .join) .wild .wild) none, phys (.cons (· = .join)) (some 7) ]

def plan : LOp Kind := .node .join [.node .scan [], .node .scan []]

end NaN

/-- A NaN cost – e.g. of a sort-merge join of an input with estimated cardinality 0 – hides the other plans: the
covering by the nested-loops join costs 7, `has_plan` is true, but `get_plan_entry` dereferences an iterator that was
never set.  With the operators registered in the other order the plan is found. -/
theorem C58_nan_cost_hides_plans_counterexample :
    hasPlan (cover NaN.sig NaN.ops NaN.plan) = true ∧
    (extractPlan NaN.sig (cover NaN.sig NaN.ops NaN.plan)).isNone = true ∧
    (∃ m, Cov NaN.sig NaN.ops (assign 0 NaN.plan) () (some 7) m) ∧
    ((extractPlan NaN.sig (cover NaN.sig NaN.ops.reverse NaN.plan)).map (fun e => e.cost)) = some (some 7) := by
  refine ⟨by decide +kernel, by decide +kernel, ?_, by decide +kernel⟩
  have hs : ∀ i, Cov NaN.sig NaN.ops (.node i .scan []) () (some 0) (.mk 0 [.node i .scan []] [] (some 0)) := by
    intro i
    exact Cov.mk (oi := 0) (ss := [⟨none, 0⟩]) (kids := []) (c := some 0) rfl (Fits.leaf (d := 0) (op := .node i Kind.scan []) rfl) rfl
      (by intro e he; cases he) (by simp [PreOK, NaN.sig]) rfl rfl
  exact ⟨_, Cov.mk (oi := 2) (c := some 7) (ss := (assign 0 NaN.plan).children.map (fun c => ⟨some c, 0⟩))
    (kids := [⟨.node 0 .scan [], (), some 0, .mk 0 [.node 0 .scan []] [] (some 0)⟩,
              ⟨.node 1 .scan [], (), some 0, .mk 0 [.node 1 .scan []] [] (some 0)⟩])
    rfl (Fits.cons (d := 0) (op := assign 0 NaN.plan) rfl) rfl
    (by
      intro e he
      simp only [List.mem_cons, List.not_mem_nil, or_false] at he
      rcases he with rfl | rfl
      · exact hs 0
      · exact hs 1)
    (by simp [NaN.plan, assign, assignList, IOp.children, PreOK, NaN.sig]) rfl rfl⟩

namespace Stale

/-- a join whose pre-condition for the first child is met only if the second child is not yet matched, as the
documentation of `pre_condition` promises (PhysicalOptimizer.hpp:423-428) -/
def join : PhysOp (Kind × Nat) Bool (Option Nat) where
  pat := .two (·.1 = .join) .wild .wild
  pre := fun i t => decide (i = 0 ∧ (t.getD 2 none).isSome = true)
  cost := fun ns _ => some ((ns.getD 1 (.node 0 (.scan, 0) [])).lbl.2)
  post := fun _ _ => false
  adapt := fun _ _ k => k
  adapts := fun _ _ _ => false

def scan : PhysOp (Kind × Nat) Bool (Option Nat) where
  pat := .leaf (·.1 = .scan)
  pre := fun _ _ => false
  cost := fun _ _ => some 0
  post := fun _ _ => false
  adapt := fun _ _ k => k
  adapts := fun _ _ _ => false

/-- `true` is the unsatisfiable condition, `false` the empty one -/
def sig : Sig (Kind × Nat) Bool (Option Nat) where
  isProd := fun l => l.1.isProducer
  implied := fun k _ => !k
  emptyK := false
  add := NaN.sig.add
  lt := NaN.sig.lt
  inf := some 1000000

/-- the left input is expensive as first child, the right one is cheap -/
def plan (l r : Nat) : LOp (Kind × Nat) := .node (.join, 0) [.node (.scan, l) [], .node (.scan, r) []]

end Stale

/-- The hypothesis `ReadsMatched` is needed: the operators that are not yet matched are *not* `nullptr` when the second
permutation of a binary pattern is tried, they are the ones left behind by the first permutation.  A pre-condition
that looks at them accepts the first permutation and rejects the second, cheaper one. -/
theorem C58_stale_nodes_counterexample :
    ((extractPlan Stale.sig (cover Stale.sig [Stale.scan, Stale.join] (Stale.plan 9 4))).map (fun e => e.cost))
      = some (some 9) ∧
    ((extractPlan Stale.sig (cover Stale.sig [Stale.scan, Stale.join] (Stale.plan 4 9))).map (fun e => e.cost))
      = some (some 4) := by
  decide +kernel

end Mutable.PhysOpt
