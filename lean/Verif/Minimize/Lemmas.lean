import Verif.Minimize.Spec
import Mathlib.Data.List.Forall2
import Mathlib.Data.List.Infix
import Mathlib.Data.List.Nodup

/-! Lemmas on schema operations, on layouts and on related lists of rows. -/
namespace Mutable.Minimize

variable {I C : Type}

section Schema
variable [DecidableEq I]

theorem has?_nodup {S : List I} (h : S.Nodup) (i : I) : has? S i = some (decide (i ∈ S)) := by
  unfold has?
  rw [if_neg]
  have := List.nodup_iff_count_le_one.mp h i
  omega

theorem union?_ok {A : List I} (h : A.Nodup) (B : List I) :
    ∃ U, union? A B = some U ∧ U.Nodup ∧ (∀ i, i ∈ U ↔ i ∈ A ∨ i ∈ B) ∧ A <+: U ∧ ((∀ i ∈ B, i ∈ A) → U = A) := by
  induction B generalizing A with
  | nil => exact ⟨A, rfl, h, by simp, List.prefix_refl _, fun _ => rfl⟩
  | cons e B ih =>
    unfold union?
    rw [has?_nodup h]
    simp only [Option.bind_eq_bind, Option.bind_some]
    by_cases he : e ∈ A
    · simp only [he, decide_true, if_true]
      obtain ⟨U, h1, h2, h3, h4, h5⟩ := ih h
      refine ⟨U, h1, h2, ?_, h4, fun hh => h5 fun i hi => hh i (by simp [hi])⟩
      intro i
      rw [h3, List.mem_cons]
      constructor
      · rintro (h | h) <;> simp [h]
      · rintro (h | rfl | h)
        · exact Or.inl h
        · exact Or.inl he
        · exact Or.inr h
    · simp only [he, decide_false, Bool.false_eq_true, if_false]
      obtain ⟨U, h1, h2, h3, h4, h5⟩ := ih (A := A ++ [e]) (by
        rw [List.nodup_append]
        refine ⟨h, by simp, ?_⟩
        intro a ha b hb
        rw [List.mem_singleton] at hb
        rintro rfl
        exact he (hb ▸ ha))
      refine ⟨U, h1, h2, ?_, (List.prefix_append A [e]).trans h4, fun hh => absurd (hh e (by simp)) he⟩
      intro i
      rw [h3, List.mem_append, List.mem_singleton, List.mem_cons]
      tauto

theorem unionAll?_ok {A : List I} (h : A.Nodup) (Bs : List (List I)) :
    ∃ U, unionAll? A Bs = some U ∧ U.Nodup ∧ ∀ i, i ∈ U ↔ i ∈ A ∨ ∃ B ∈ Bs, i ∈ B := by
  induction Bs generalizing A with
  | nil => exact ⟨A, rfl, h, by simp⟩
  | cons B Bs ih =>
    unfold unionAll?
    obtain ⟨U, h1, h2, h3, _⟩ := union?_ok h B
    rw [h1]
    simp only [Option.bind_eq_bind, Option.bind_some]
    obtain ⟨W, w1, w2, w3⟩ := ih h2
    refine ⟨W, w1, w2, ?_⟩
    intro i
    rw [w3, h3]
    simp only [List.mem_cons, exists_eq_or_imp, or_assoc]

theorem inter?_ok {B : List I} (h : B.Nodup) (A : List I) : inter? A B = some (A.filter fun i => decide (i ∈ B)) := by
  induction A with
  | nil => rfl
  | cons e A ih =>
    unfold inter?
    rw [has?_nodup h, ih]
    simp only [Option.bind_eq_bind, Option.bind_some, List.filter_cons]

theorem insist?_ok {req S : List I} (h : S.Nodup) (hs : ∀ i ∈ req, i ∈ S) : insist? req S = some () := by
  unfold insist?
  rw [inter?_ok h]
  simp only [Option.bind_eq_bind, Option.bind_some]
  rw [if_pos]
  rw [List.all_eq_true]
  intro i hi
  simp [hi, hs i hi]

theorem lookups?_ok {T : List I} (h : T.Nodup) (S : List I) : lookups? S T = some () := by
  induction S with
  | nil => rfl
  | cons e S ih =>
    unfold lookups?
    rw [has?_nodup h, ih]
    rfl

theorem keep?_ok {β : Type} (top : Bool) {req : List I} (h : req.Nodup) (xs : List (I × β)) :
    keep? top req xs = some (xs.filter fun x => top || decide (x.1 ∈ req)) := by
  induction xs with
  | nil => rfl
  | cons x xs ih =>
    unfold keep?
    rw [ih, has?_nodup h]
    cases top <;> simp [List.filter_cons]

theorem JPred.req?_ok (p : JPred I C) : ∃ q, p.req? = some q ∧ ∀ i, i ∈ q ↔ p.Mentions i := by
  cases p with
  | theta p => exact ⟨p.req, rfl, fun _ => Iff.rfl⟩
  | equi keys eqk =>
    obtain ⟨U, h1, _, h3⟩ := unionAll?_ok (A := ([] : List I)) List.nodup_nil (keys.flatMap fun k => [k.1.req, k.2.req])
    refine ⟨U, h1, ?_⟩
    intro i
    rw [h3]
    simp only [JPred.Mentions, List.mem_flatMap, List.not_mem_nil, false_or, List.mem_cons, or_false]
    constructor
    · rintro ⟨B, ⟨k, hk, rfl | rfl⟩, hi⟩
      · exact ⟨k, hk, Or.inl hi⟩
      · exact ⟨k, hk, Or.inr hi⟩
    · rintro ⟨k, hk, hi | hi⟩
      · exact ⟨_, ⟨k, hk, Or.inl rfl⟩, hi⟩
      · exact ⟨_, ⟨k, hk, Or.inr rfl⟩, hi⟩

end Schema

/-! ### Lookups in tuples -/

section Look
variable [DecidableEq I]

theorem look_map (junk : C) {L : List I} {i : I} (h : i ∈ L) (r : I → C) : look junk L (L.map r) i = r i := by
  unfold look
  rw [List.getD_eq_getElem?_getD, List.getElem?_map, List.getElem?_idxOf h]
  rfl

theorem look_prefix (junk : C) {D L : List I} (hp : D <+: L) {i : I} (h : i ∈ D) (r : I → C) :
    look junk D (L.map r) i = r i := by
  obtain ⟨M, rfl⟩ := hp
  unfold look
  rw [List.getD_eq_getElem?_getD, List.getElem?_map,
    List.getElem?_append_left (List.idxOf_lt_length_of_mem h), List.getElem?_idxOf h]
  rfl

theorem look_clone (junk : C) (cl : C → C) {D L : List I} (hp : D <+: L) {i : I} (h : i ∈ D) (r : I → C) :
    look junk L (cloneAs cl D.length (L.map r)) i = cl (r i) := by
  obtain ⟨M, rfl⟩ := hp
  unfold look cloneAs
  rw [List.idxOf_append_of_mem h, List.map_append, List.take_left' (by simp), List.map_map,
    List.getD_eq_getElem?_getD, List.getElem?_map, List.getElem?_idxOf h]
  rfl

theorem cloneAs_all (cl : C → C) (L : List I) (r : I → C) :
    cloneAs cl L.length (L.map r) = L.map fun i => cl (r i) := by
  unfold cloneAs
  rw [List.take_of_length_le (by simp), List.map_map]
  rfl

/-- Rows made of lists of values. -/
theorem map_mkRow (junk : C) {ids : List I} (h : ids.Nodup) (vals : List C) (hl : vals.length = ids.length) :
    ids.map (mkRow junk ids vals) = vals := by
  apply List.ext_getElem
  · simp [hl]
  intro k h1 h2
  rw [List.getElem_map]
  unfold mkRow look
  rw [List.Nodup.idxOf_getElem h, List.getD_eq_getElem?_getD, List.getElem?_eq_getElem h2]
  rfl

end Look

/-- The schema of the pipeline in which the interpreter pushes the tuples of the operator. -/
def layout : Plan I C → List I
  | .scan S _ => S
  | .filter _ _ c => layout c
  | .join S _ _ _ _ => S
  | .proj items _ => items.map Prod.fst
  | .proj0 items => items.map Prod.fst
  | .limit _ _ c => layout c
  | .group keys _ aggs _ _ => keys.map Prod.fst ++ aggs.map Prod.fst
  | .agg aggs _ => aggs.map Prod.fst
  | .sort _ _ c => layout c

theorem run_layout [DecidableEq I] (cl : C → C) (junk : C) (p : Plan I C) : (run cl junk p).layout = layout p := by
  induction p with
  | scan => rfl
  | filter S p c ih => simpa [run, layout] using ih
  | join => rfl
  | proj => rfl
  | proj0 => rfl
  | limit off lim c ih => simpa [run, layout] using ih
  | group => rfl
  | agg => rfl
  | sort S o c ih => simpa [run, layout] using ih

/-! ### Lists of rows -/

section Rows
variable {α β γ δ : Type}

theorem pick_map (f : α → β) (ix : List Nat) (l : List α) : pick ix (l.map f) = (pick ix l).map f := by
  unfold pick
  rw [List.map_filterMap]
  apply List.filterMap_congr
  intro i _
  rw [List.getElem?_map]

theorem pickPairs_map {α' β' : Type} (f : α → β → Option γ) (g : α' → α) (h : β' → β) (ix : List (Nat × Nat))
    (l : List α') (r : List β') : pickPairs f ix (l.map g) (r.map h) = pickPairs (fun a b => f (g a) (h b)) ix l r := by
  unfold pickPairs
  apply List.filterMap_congr
  intro ij _
  rw [List.getElem?_map, List.getElem?_map]
  cases l[ij.1]? <;> cases r[ij.2]? <;> rfl

theorem map_pickPairs (f : α → β → Option γ) (k : γ → δ) (ix : List (Nat × Nat)) (l : List α) (r : List β) :
    (pickPairs f ix l r).map k = pickPairs (fun a b => (f a b).map k) ix l r := by
  unfold pickPairs
  rw [List.map_filterMap]
  apply List.filterMap_congr
  intro ij _
  cases l[ij.1]? <;> cases r[ij.2]? <;> rfl

theorem addGroup_map (eqk : List C → List C → Bool) (k : List C) (g : α → β) (t : α) (gs : List (List C × List α)) :
    addGroup eqk k (g t) (gs.map fun G => (G.1, G.2.map g)) = (addGroup eqk k t gs).map fun G => (G.1, G.2.map g) := by
  induction gs with
  | nil => rfl
  | cons G gs ih =>
    simp only [List.map_cons, addGroup]
    split
    · simp
    · simp [ih]

theorem groupBy_map (eqk : List C → List C → Bool) (key : β → List C) (g : α → β) (ts : List α) :
    groupBy eqk key (ts.map g) = (groupBy eqk (fun t => key (g t)) ts).map fun G => (G.1, G.2.map g) := by
  unfold groupBy
  have : ∀ (ts : List α) (gs : List (List C × List α)),
      (ts.map g).foldl (fun gs t => addGroup eqk (key t) t gs) (gs.map fun G => (G.1, G.2.map g)) =
      (ts.foldl (fun gs t => addGroup eqk (key (g t)) t gs) gs).map fun G => (G.1, G.2.map g) := by
    intro ts
    induction ts with
    | nil => intro gs; rfl
    | cons t ts ih =>
      intro gs
      simp only [List.map_cons, List.foldl_cons]
      rw [addGroup_map, ih]
  exact this ts []

theorem groupBy_congr (eqk : List C → List C → Bool) (key key' : α → List C) (ts : List α)
    (h : ∀ t ∈ ts, key t = key' t) : groupBy eqk key ts = groupBy eqk key' ts := by
  unfold groupBy
  generalize ([] : List (List C × List α)) = gs
  induction ts generalizing gs with
  | nil => rfl
  | cons t ts ih =>
    simp only [List.foldl_cons]
    rw [h t (by simp), ih fun t ht => h t (by simp [ht])]

variable {R : α → β → Prop}

theorem F2.filter {as : List α} {bs : List β} (h : List.Forall₂ R as bs) {p : α → Bool} {q : β → Bool}
    (hpq : ∀ a b, R a b → p a = q b) : List.Forall₂ R (as.filter p) (bs.filter q) := by
  induction h with
  | nil => simp
  | cons hab _ ih =>
    rename_i a b _ _ _
    rw [List.filter_cons, List.filter_cons, hpq a b hab]
    split
    · exact List.Forall₂.cons hab ih
    · exact ih

theorem F2.get {as : List α} {bs : List β} (h : List.Forall₂ R as bs) (i : Nat) :
    (as[i]? = none ∧ bs[i]? = none) ∨ ∃ a b, as[i]? = some a ∧ bs[i]? = some b ∧ R a b := by
  induction h generalizing i with
  | nil => simp
  | cons hab _ ih =>
    cases i with
    | zero => right; exact ⟨_, _, rfl, rfl, hab⟩
    | succ i => simpa using ih i

theorem F2.pick {as : List α} {bs : List β} (h : List.Forall₂ R as bs) (ix : List Nat) :
    List.Forall₂ R (pick ix as) (pick ix bs) := by
  unfold Minimize.pick
  induction ix with
  | nil => simp
  | cons i ix ih =>
    rw [List.filterMap_cons, List.filterMap_cons]
    rcases F2.get h i with ⟨h1, h2⟩ | ⟨a, b, h1, h2, h3⟩
    · rw [h1, h2]; exact ih
    · rw [h1, h2]; exact List.Forall₂.cons h3 ih

theorem F2.pickPairs {α' β' γ' : Type} {R' : α' → β' → Prop} {Q : γ → γ' → Prop} {as : List α} {bs : List β}
    {as' : List α'} {bs' : List β'} (h : List.Forall₂ R as bs) (h' : List.Forall₂ R' as' bs')
    (f : α → α' → Option γ) (g : β → β' → Option γ')
    (hfg : ∀ a b a' b', R a b → R' a' b' → (f a a' = none ∧ g b b' = none) ∨
      ∃ x y, f a a' = some x ∧ g b b' = some y ∧ Q x y) (ix : List (Nat × Nat)) :
    List.Forall₂ Q (pickPairs f ix as as') (pickPairs g ix bs bs') := by
  unfold Minimize.pickPairs
  induction ix with
  | nil => simp
  | cons ij ix ih =>
    rw [List.filterMap_cons, List.filterMap_cons]
    rcases F2.get h ij.1 with ⟨h1, h2⟩ | ⟨a, b, h1, h2, h3⟩
    · rw [h1, h2]; exact ih
    · rcases F2.get h' ij.2 with ⟨k1, k2⟩ | ⟨a', b', k1, k2, k3⟩
      · rw [h1, h2, k1, k2]; exact ih
      · rw [h1, h2, k1, k2]
        simp only
        rcases hfg a b a' b' h3 k3 with ⟨e1, e2⟩ | ⟨x, y, e1, e2, e3⟩
        · rw [e1, e2]; exact ih
        · rw [e1, e2]; exact List.Forall₂.cons e3 ih

theorem F2.addGroup {eqk : List C → List C → Bool} {k : List C} {t : α} {u : β} (ht : R t u)
    {gs : List (List C × List α)} {hs : List (List C × List β)}
    (h : List.Forall₂ (fun g g' => g.1 = g'.1 ∧ List.Forall₂ R g.2 g'.2) gs hs) :
    List.Forall₂ (fun g g' => g.1 = g'.1 ∧ List.Forall₂ R g.2 g'.2) (addGroup eqk k t gs) (addGroup eqk k u hs) := by
  induction h with
  | nil => exact List.Forall₂.cons ⟨rfl, List.Forall₂.cons ht List.Forall₂.nil⟩ List.Forall₂.nil
  | cons hab hr ih =>
    simp only [Minimize.addGroup]
    rw [hab.1]
    split
    · exact List.Forall₂.cons ⟨rfl, List.rel_append hab.2 (List.Forall₂.cons ht List.Forall₂.nil)⟩ hr
    · exact List.Forall₂.cons hab ih

theorem F2.groupBy {eqk : List C → List C → Bool} {key : α → List C} {key' : β → List C}
    (hk : ∀ a b, R a b → key a = key' b) {as : List α} {bs : List β} (h : List.Forall₂ R as bs) :
    List.Forall₂ (fun g g' => g.1 = g'.1 ∧ List.Forall₂ R g.2 g'.2) (groupBy eqk key as) (groupBy eqk key' bs) := by
  unfold Minimize.groupBy
  have : ∀ (gs : List (List C × List α)) (hs : List (List C × List β)),
      List.Forall₂ (fun g g' => g.1 = g'.1 ∧ List.Forall₂ R g.2 g'.2) gs hs →
      List.Forall₂ (fun g g' => g.1 = g'.1 ∧ List.Forall₂ R g.2 g'.2)
        (as.foldl (fun gs t => Minimize.addGroup eqk (key t) t gs) gs)
        (bs.foldl (fun gs t => Minimize.addGroup eqk (key' t) t gs) hs) := by
    induction h with
    | nil => intro gs hs hh; exact hh
    | cons hab _ ih =>
      intro gs hs hh
      simp only [List.foldl_cons]
      rw [hk _ _ hab]
      exact ih _ _ (F2.addGroup hab hh)
  exact this [] [] List.Forall₂.nil

theorem F2.drop {as : List α} {bs : List β} (h : List.Forall₂ R as bs) (n : Nat) :
    List.Forall₂ R (as.drop n) (bs.drop n) := List.forall₂_drop n h

theorem F2.take {as : List α} {bs : List β} (h : List.Forall₂ R as bs) (n : Nat) :
    List.Forall₂ R (as.take n) (bs.take n) := List.forall₂_take n h

theorem F2.map {γ' : Type} {Q : γ → γ' → Prop} {as : List α} {bs : List β} (h : List.Forall₂ R as bs) {f : α → γ}
    {g : β → γ'} (hfg : ∀ a b, R a b → Q (f a) (g b)) : List.Forall₂ Q (as.map f) (bs.map g) := by
  induction h with
  | nil => simp
  | cons hab _ ih => exact List.Forall₂.cons (hfg _ _ hab) ih

theorem F2.self (l : List α) {f : α → β} {g : α → γ} {Q : β → γ → Prop} (h : ∀ a ∈ l, Q (f a) (g a)) :
    List.Forall₂ Q (l.map f) (l.map g) := by
  induction l with
  | nil => simp
  | cons a l ih => exact List.Forall₂.cons (h a (by simp)) (ih fun b hb => h b (by simp [hb]))

end Rows

end Mutable.Minimize
