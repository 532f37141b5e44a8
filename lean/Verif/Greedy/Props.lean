import Mathlib.Order.WithBot
import Mathlib.Algebra.Order.Monoid.WithTop
import Verif.Greedy.SeqDP
import Verif.Greedy.TDGOO
/-!
# Property C16: the greedy plan enumerators

Specification: as for C13 (`Tree`, `IsPlan`, `Recorded`, `Tree.cost`), and `Verif.Greedy.Spec`.

* `ValidPlan`: the table records for the whole query a join tree which uses each relation once, joins only sides connected by a
  join condition, and has the recorded cost.
* Assumptions on the environment as in C13 (`Sane`, `Init`); the query graph is symmetric and connected.
* `IKKBZ` and `LinearizedDP` moreover start from the cost *infinity*, so the plans must have a cost below it (`Finite`).
-/
namespace Mutable
open SB AdjMat
namespace PE
variable {C D K W : Type} [LinearOrder C] [LinearOrder K]

/-- The table holds a complete plan of the whole query without Cartesian products. -/
def ValidPlan (E : Env C D) (est : SB → D) (base : Nat → C) (T : PT C D) (t : Tree) : Prop :=
  Recorded T (all E.n) t ∧ IsPlan E.n (Adjacent E.M) t (all E.n) ∧ t.cost E est base = (T (all E.n)).cost

variable (E : Env C D) (est : SB → D) (base : Nat → C)

theorem conn_all {M : AdjMat} {n : Nat} (hn : n ≤ 64) (hc : M.Connected {i | i < n}) : M.ConnSet (all n) := by
  rw [← connected_iff]
  rwa [show elems (all n) = {i | i < n} from by ext i; rw [mem_elems, mem_all hn]; rfl]

/-- `GOO`: the plan is valid, and it consists of the joins of a greedy run: starting from the single relations, in each step the
join with the smallest result of all possible joins. -/
theorem C16_GOO (card : D → K) (hE : Sane E est) (hM : E.M.Symmetric) (hn : E.n ≤ 64) (h1 : 1 ≤ E.n) (hc : E.M.Connected {i | i < E.n})
    (T : PT C D) (hT : Init est base E.n T) :
    ∃ js T' t, goo E card T = some (js, T') ∧ ValidPlan E est base T' t ∧
      IsPlan E.n (fun A B => (A, B) ∈ js ∨ (B, A) ∈ js) t (all E.n) ∧
      GreedyRun E.M (fun S => card (est S)) {S | ∃ i, i < E.n ∧ S = singleton i} js := by
  have hS := (symmetric_iff _).1 hM
  obtain ⟨js, T', r1, r2, r3, r4⟩ := goo_spec (card := card) hE hS hn h1 (conn_all hn hc) hT
  have r2' : RunInv E est base (fun A B => Adjacent E.M A B ∧ ((A, B) ∈ js ∨ (B, A) ∈ js)) js T' :=
    ⟨r2.dp, fun p hp => ⟨(r2.ok p hp).ne1, (r2.ok p hp).ne2, (r2.ok p hp).dis, (r2.ok p hp).sub1, (r2.ok p hp).sub2, (r2.ok p hp).may, Or.inl hp⟩,
      r2.has, r2.only⟩
  obtain ⟨t, a1, a2, a3⟩ := r2'.tree (fun A B h => ⟨adjacent_symm' hS _ _ h.1, h.2.symm⟩) hn (Sub.refl _) r4
  have weak : ∀ {p q : SB → SB → Prop} {t : Tree} {S : SB}, (∀ A B, p A B → q A B) → IsPlan E.n p t S → IsPlan E.n q t S := by
    intro p q t S hpq h
    induction h with
    | leaf i hi => exact .leaf i hi
    | node _ _ hd hm ih1 ih2 => exact .node ih1 ih2 hd (hpq _ _ hm)
  exact ⟨js, T', t, r1, ⟨a1, weak (fun A B h => h.1) a2, a3⟩, weak (fun A B h => h.2) a2, r3⟩

/-- `TDGOO`: the plan is valid, and each set of relations is cut into two connected parts so that the sum of their cardinalities is
least. -/
theorem C16_TDGOO [AddCommMonoid K] (card : D → K) (estAll : SB → D) (hA : ∀ S, estAll S = est S) (hE : Sane E est) (hM : E.M.Symmetric) (hn : E.n ≤ 64)
    (h1 : 1 ≤ E.n) (hc : E.M.Connected {i | i < E.n}) (T : PT C D) (hT : Init est base E.n T) :
    ∃ js T' t, tdgoo E card estAll T = some (js, T') ∧ ValidPlan E est base T' t ∧ GreedyCut E.M (fun S => card (est S)) t (all E.n) := by
  have hS := (symmetric_iff _).1 hM
  obtain ⟨js, T', r1, r2, r3⟩ := tdgoo_spec (card := card) hE hS hn h1 (conn_all hn hc) hA hT
  obtain ⟨t, a1, a2, a3⟩ := r2.tree (TCut.symm hS) hn (Sub.refl _) r3
  obtain ⟨b1, b2⟩ := cut_plan a2 hn
  exact ⟨js, T', t, r1, ⟨a1, b1, a3⟩, b2⟩

/-- All costs are below the initial value of the running minimum. -/
structure Finite (inf : C) : Prop where
  base : ∀ i, i < E.n → base i < inf
  join : ∀ A B c c', c < inf → c' < inf → E.J est A B c c' < inf

variable {E est base}

theorem Finite.linCost {inf : C} (hn : E.n ≤ 64) (h : Finite E est base inf) (xs : List Nat) :
    ∀ (c : C) (S : SB), c < inf → (∀ q ∈ chain S xs, PairOK E.n (Adjacent E.M) q) → PE.linCost E est base c S xs < inf := by
  induction xs with
  | nil => intro c S hc _; exact hc
  | cons x xs ih =>
    intro c S hc hch
    obtain ⟨n1, n2, hd, s1, s2, hadj⟩ := hch _ (List.mem_cons_self ..)
    simp only at n2 s2
    obtain ⟨i, hi⟩ := (ne_zero_iff _).1 n2
    obtain ⟨hi64, rfl⟩ := (mem_singleton _ _).1 hi
    have hin := h.base i ((mem_all hn i).1 (s2 i hi))
    exact ih _ _ (min_lt_of_left_lt (h.join _ _ _ _ hc hin)) fun q hq => hch q (List.mem_cons_of_mem _ hq)

variable (E est base)

/-- `lin` lists all relations, starting with `r`; each further one is a neighbor in the spanning tree `F` of earlier ones, and at its turn no
neighbor has a better rank. -/
def IsLin (X : LinEnv C D W) (better : W → W → Prop) (F : AdjMat) (r : Nat) (xs : List Nat) : Prop :=
  (r :: xs).Perm (List.range E.n) ∧
    RankLin F better (fun p y => X.rank (est (singleton p)) (est (singleton y)) (est (singleton p ||| singleton y))) (singleton r) xs

/-- A tree spanning the query graph. -/
def SpanningTree (M F : AdjMat) : Prop := SpanningSubgraph M F ∧ F.Forest

variable {E est base}

theorem isLin_of {X : LinEnv C D W} {better : W → W → Prop} {F : AdjMat} (hn : E.n ≤ 64) {r : Nat} {xs : List Nat} (h : RootLin E est X F better r xs) :
    IsLin E est X better F r xs := by
  have hl := h.seq hn
  refine ⟨?_, h.rank⟩
  refine (List.subperm_of_subset hl.nd ?_).perm_of_length_le (by rw [hl.len, List.length_range])
  intro x hx
  exact List.mem_range.2 (hl.lt x hx)

theorem spanningTree_msf {M : AdjMat} (hM : M.Valid) (hS : M.Symmetric) (w : Nat → Nat → W) {pick : List (WEdge W) → Nat} (hp : PickAny pick) :
    SpanningTree M (msf pick M w) := by
  obtain ⟨h1, h2, h3, h4, h5⟩ := msf_any ((valid_iff M).1 hM) ((symmetric_iff M).1 hS) w hp
  refine ⟨⟨h1, (symmetric_iff _).2 h2, by rw [adj_eq, adj_eq]; exact h3, ?_⟩, (forest_iff _).2 h4⟩
  unfold Walk
  rw [adj_eq, adj_eq]
  intro a b hab
  induction hab with
  | refl => exact .refl
  | tail _ e ih => exact ih.trans (h5 _ _ e)

variable (E est base)

/-- `IKKBZ`: the plan is valid and linear, and its cost is that of a rank-ordered linearization of a spanning tree; for every relation such
a linearization starting there was considered, and none of these is cheaper.  `better a b` can be any relation which the top of the
rank queue fulfills (the code: not `b < a`), in particular the one that always holds. -/
theorem C16_IKKBZ (X : LinEnv C D W) (dflt : D) (better : W → W → Prop) (hp : PickR better X.pickR) (hpk : PickAny X.pick) (hE : Sane E est)
    (hM : E.M.Valid) (hS : E.M.Symmetric) (hMn : E.M.n = E.n) (h1 : 1 ≤ E.n) (hc : E.M.Connected {i | i < E.n}) (hfin : Finite E est base X.inf)
    (T : PT C D) (hT : Init est base E.n T) :
    ∃ T' t F r xs, ikkbz E X dflt T = some T' ∧ ValidPlan E est base T' t ∧ Linear t ∧
      SpanningTree E.M F ∧ IsLin E est X better F r xs ∧ t.cost E est base = linCost E est base (base r) (singleton r) xs ∧
      ∀ r', r' < E.n → ∃ xs', IsLin E est X better F r' xs' ∧ t.cost E est base ≤ linCost E est base (base r') (singleton r') xs' := by
  have hn : E.n ≤ 64 := hMn ▸ hM.1
  obtain ⟨T', t, r, xs, a1, _, a3, a4, a5, a6, a7, a8, a9⟩ := ikkbz_spec hE hn h1 ((valid_iff _).1 hM) ((symmetric_iff _).1 hS) hMn (conn_all hn hc) hpk hp dflt hT rfl
    (fun r xs h => hfin.linCost hn xs _ _ (hfin.base r h.root) h.ok)
  refine ⟨T', t, _, r, xs, a1, ⟨a4, a5, a7⟩, a6, spanningTree_msf hM hS _ hpk, isLin_of hn a3, a8, fun r' hr' => ?_⟩
  obtain ⟨xs', b1, b2⟩ := a9 r' hr'
  exact ⟨xs', isLin_of hn b1, b2⟩

/-- `LinearizedDP`: the plan is valid; it is a cheapest one of all plans without Cartesian products whose leaves are, up to exchanging the
sides of joins, in the order of the linearization. -/
theorem C16_LinearizedDP (X : LinEnv C D W) (dflt : D) (better : W → W → Prop) (hp : PickR better X.pickR) (hpk : PickAny X.pick) (hE : Sane E est)
    (hM : E.M.Valid) (hS : E.M.Symmetric) (hMn : E.M.n = E.n) (h1 : 1 ≤ E.n) (hc : E.M.Connected {i | i < E.n}) (hfin : Finite E est base X.inf)
    (T : PT C D) (hT : Init est base E.n T) :
    ∃ T' t F r xs, linDP E X dflt T = some T' ∧ ValidPlan E est base T' t ∧ SpanningTree E.M F ∧ IsLin E est X better F r xs ∧
      (∀ t', Along t' (r :: xs) → IsPlan E.n (Adjacent E.M) t' (all E.n) → t.cost E est base ≤ t'.cost E est base) ∧
      ∀ r', r' < E.n → ∃ xs', IsLin E est X better F r' xs' ∧ t.cost E est base ≤ linCost E est base (base r') (singleton r') xs' := by
  have hn : E.n ≤ 64 := hMn ▸ hM.1
  obtain ⟨T', t, r, xs, a1, _, a3, a4, a5, a6, a7, a8, a9⟩ := linDP_spec hE hn h1 ((valid_iff _).1 hM) ((symmetric_iff _).1 hS) hMn (conn_all hn hc) hpk hp dflt hT rfl
    (fun r xs h => hfin.linCost hn xs _ _ (hfin.base r h.root) h.ok)
  refine ⟨T', t, _, r, xs, a1, ⟨a4, a5, a6⟩, spanningTree_msf hM hS _ hpk, isLin_of hn a3, a7, fun r' hr' => ?_⟩
  obtain ⟨xs', b1, b2⟩ := a9 r' hr'
  exact ⟨xs', isLin_of hn b1, b2⟩

/-- `LinearizedDP` never yields a more expensive plan than `IKKBZ`. -/
theorem C16_LinearizedDP_le_IKKBZ (X : LinEnv C D W) (dflt : D) (better : W → W → Prop) (hp : PickR better X.pickR) (hpk : PickAny X.pick) (hE : Sane E est)
    (hM : E.M.Valid) (hS : E.M.Symmetric) (hMn : E.M.n = E.n) (h1 : 1 ≤ E.n) (hc : E.M.Connected {i | i < E.n}) (hfin : Finite E est base X.inf)
    (T : PT C D) (hT : Init est base E.n T) :
    ∃ T₁ T₂, linDP E X dflt T = some T₁ ∧ ikkbz E X dflt T = some T₂ ∧ (T₁ (all E.n)).cost ≤ (T₂ (all E.n)).cost := by
  have hn : E.n ≤ 64 := hMn ▸ hM.1
  have hf : ∀ r xs, RootLin E est X (msf X.pick E.M (selectivity E X T dflt)) better r xs → linCost E est base (base r) (singleton r) xs < X.inf :=
    fun r xs h => hfin.linCost hn xs _ _ (hfin.base r h.root) h.ok
  obtain ⟨T₁, t, r, xs, a1, ⟨_, a2⟩, a3, a4, a5, a6, a7, a8, a9⟩ := linDP_spec hE hn h1 ((valid_iff _).1 hM) ((symmetric_iff _).1 hS) hMn (conn_all hn hc) hpk hp dflt hT rfl hf
  obtain ⟨T₂, t', r', xs', b1, ⟨_, b2⟩, b3, b4, b5, b6, b7, b8, b9⟩ := ikkbz_spec hE hn h1 ((valid_iff _).1 hM) ((symmetric_iff _).1 hS) hMn (conn_all hn hc) hpk hp dflt hT rfl hf
  refine ⟨T₁, T₂, a1, b1, ?_⟩
  rw [a2] at b2
  simp only [Option.some.injEq, Prod.mk.injEq, List.cons.injEq] at b2
  obtain ⟨_, rfl, rfl⟩ := b2
  rw [← a6, ← b7, b8]
  exact a8

/-! ### Witnesses -/

/-- The cycle 0-1-2-3 with 4 attached to 2. -/
def exCyc : AdjMat := ofEdges 5 [(0,1), (1,2), (2,3), (3,0), (2,4)]
theorem exCyc_ok : exCyc.Valid ∧ exCyc.Symmetric := ofEdges_ok 5 (by decide) _ (by decide)

theorem exCyc_conn : exCyc.Connected {i | i < 5} := by
  have : elems (all 5) = {i | i < 5} := by ext i; rw [mem_elems, mem_all (by omega)]; rfl
  rw [← this, connected_iff, ← isConnected_iff ((symmetric_iff _).1 exCyc_ok.2)]
  decide

/-- Estimated cardinalities: different for different sets. -/
def exSizes (S : SB) : Nat := if size S ≤ 1 then 10 else S.toNat % 7 + size S

set_option maxRecDepth 100000 in
/-- `GOO`, `TDGOO`: the hypotheses hold, and the runs yield the joins shown. -/
example : Sane (coutEnv 5 exCyc exSizes) (fun S => (S, exSizes S)) ∧ exCyc.Symmetric ∧ exCyc.Connected {i | i < 5} ∧
    Init (fun S => (S, exSizes S)) (fun _ => 0) 5 (initPT exSizes) ∧
    ((goo (coutEnv 5 exCyc exSizes) Prod.snd (initPT exSizes)).map fun r => (r.1, (r.2 0b11111#64).cost)) =
      some ([(1#64, 8#64), (9#64, 2#64), (11#64, 4#64), (15#64, 16#64)], 24) ∧
    ((tdgoo (coutEnv 5 exCyc exSizes) Prod.snd (fun S => (S, exSizes S)) (initPT exSizes)).map fun r => r.1) =
      some [(1#64, 8#64), (4#64, 16#64), (2#64, 20#64), (9#64, 22#64)] :=
  ⟨cout_sane _ _ _, exCyc_ok.2, exCyc_conn, cout_init _ _ (by omega), by decide +kernel, by decide +kernel⟩

/-- As `coutEnv`, with costs that may be infinite. -/
def coutTop (n : Nat) (M : AdjMat) (card : SB → Nat) : Env (WithTop Nat) (SB × Nat) where
  n := n
  M := M
  estJoin := fun a b => (a.1 ||| b.1, card (a.1 ||| b.1))
  jc := fun _ _ m _ _ cl cr => cl + cr + (m.2 : WithTop Nat)

def initTop (card : SB → Nat) : PT (WithTop Nat) (SB × Nat) := fun S =>
  { left := 0#64, right := 0#64, model := if size S = 1 then some (S, card S) else none, cost := if size S = 1 then 0 else ⊤ }

theorem coutTop_sane (n : Nat) (M : AdjMat) (card : SB → Nat) : Sane (coutTop n M card) (fun S => (S, card S)) :=
  ⟨fun _ _ _ => rfl, fun _ _ _ _ _ _ h1 h2 => by simp only [Env.J, coutTop]; gcongr⟩

theorem coutTop_init (card : SB → Nat) (n : Nat) (hn : n ≤ 64) : Init (fun S => (S, card S)) (fun _ => (0 : WithTop Nat)) n (initTop card) := by
  refine ⟨fun i hi => ⟨?_, ?_⟩, fun _ _ => rfl, ?_⟩
  · simp [initTop, size_singleton (show i < 64 by omega)]
  · simp [initTop, size_singleton (show i < 64 by omega)]
  · intro S d hd
    simp only [initTop] at hd
    split at hd
    · exact (Option.some.inj hd).symm
    · cases hd

theorem coutTop_fin (n : Nat) (M : AdjMat) (card : SB → Nat) : Finite (coutTop n M card) (fun S => (S, card S)) (fun _ => 0) ⊤ :=
  ⟨fun _ _ => WithTop.top_pos, fun A B c c' h1 h2 => by
    simp only [Env.J, coutTop, WithTop.add_lt_top]
    exact ⟨⟨h1, h2⟩, WithTop.coe_lt_top _⟩⟩

/-- The numbers of IK/KBZ over the integers, the queues yielding the first least element. -/
def exLin : LinEnv (WithTop Nat) (SB × Nat) Int where
  sel := fun _ _ j => j.2
  rank := fun p _ j => (j.2 : Int) - p.2
  pick := pickFirst
  pickR := fun Q => Q.findIdx fun e => Q.all fun q => decide (e.2 ≤ q.2)
  inf := ⊤

theorem exLin_pickR : PickR (· ≤ ·) exLin.pickR := by
  intro Q hQ
  obtain ⟨h1, h2⟩ := pickFirst_min (Q.map fun e => (⟨0, 0, e.2⟩ : WEdge Int)) (by simpa using hQ)
  have he : pickFirst (Q.map fun e => (⟨0, 0, e.2⟩ : WEdge Int)) = exLin.pickR Q := by
    simp only [pickFirst, exLin, List.findIdx_map, List.all_map, Function.comp_def]
  rw [List.length_map, he] at h1
  refine ⟨h1, fun q hq => ?_⟩
  have := h2 _ (List.mem_map_of_mem hq)
  simpa [he] using this

theorem exLin_pick : PickAny exLin.pick := fun Q hQ => (pickFirst_min Q hQ).1

set_option maxRecDepth 100000 in
/-- `IKKBZ`, `LinearizedDP`: the hypotheses hold, and the runs yield plans of the costs shown. -/
example : PickR (· ≤ ·) exLin.pickR ∧ PickAny exLin.pick ∧ Sane (coutTop 5 exCyc exSizes) (fun S => (S, exSizes S)) ∧ exCyc.Valid ∧ exCyc.Symmetric ∧
    exCyc.n = 5 ∧ exCyc.Connected {i | i < 5} ∧ Finite (coutTop 5 exCyc exSizes) (fun S => (S, exSizes S)) (fun _ => 0) exLin.inf ∧
    Init (fun S => (S, exSizes S)) (fun _ => 0) 5 (initTop exSizes) ∧
    ((linearize (coutTop 5 exCyc exSizes) exLin (0#64, 0) (initTop exSizes)).map fun r => r.2) = some [0, 3, 1, 2, 4] ∧
    ((ikkbz (coutTop 5 exCyc exSizes) exLin (0#64, 0) (initTop exSizes)).map fun T => (T 0b11111#64).cost) = some 24 ∧
    ((linDP (coutTop 5 exCyc exSizes) exLin (0#64, 0) (initTop exSizes)).map fun T => (T 0b11111#64).cost) = some 24 :=
  ⟨exLin_pickR, exLin_pick, coutTop_sane _ _ _, exCyc_ok.1, exCyc_ok.2, rfl, exCyc_conn, coutTop_fin _ _ _, coutTop_init _ _ (by omega),
    by decide +kernel, by decide +kernel, by decide +kernel⟩

/-! ### What the code does not do -/

/-- Two relations without join condition. -/
def exTwo : AdjMat := ⟨2, fun _ => 0#64⟩

/-- On an unconnected query graph `GOO` dereferences null and `IKKBZ` violates an assertion. -/
theorem C16_unconnected_fails :
    (goo (coutEnv 2 exTwo exSizes) Prod.snd (initPT exSizes)).isNone = true ∧
    (ikkbz (coutTop 2 exTwo exSizes) exLin (0#64, 0) (initTop exSizes)).isNone = true ∧
    (linDP (coutTop 2 exTwo exSizes) exLin (0#64, 0) (initTop exSizes)).isNone = true := by
  refine ⟨by decide +kernel, by decide +kernel, by decide +kernel⟩

set_option maxRecDepth 100000 in
/-- If all plans have infinite cost, `IKKBZ` finds no linearization and violates an assertion. -/
theorem C16_infinite_fails :
    (ikkbz { coutTop 5 exCyc exSizes with jc := fun _ _ _ _ _ _ _ => ⊤ } exLin (0#64, 0) (initTop exSizes)).isNone = true := by
  decide +kernel

end PE
end Mutable
