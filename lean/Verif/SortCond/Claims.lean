import Verif.SortCond.Main

namespace Mutable.SortCond

variable {I V : Type} [LinearOrder V]

theorem LexLe.congr : ∀ {b : List (I × Bool)} {r s r' s' : Row I V}, (∀ p ∈ b, r' p.1 = r p.1 ∧ s' p.1 = s p.1) →
    LexLe b r s → LexLe b r' s'
  | [], _, _, _, _, _, _ => trivial
  | (i, asc) :: t, r, s, r', s', h, hl => by
    obtain ⟨e1, e2⟩ := h _ List.mem_cons_self
    simp only at e1 e2
    have ht := fun q hq => h q (List.mem_cons_of_mem _ hq)
    rcases hl with hl | ⟨h1, h2⟩
    · left; rw [e1, e2]; exact hl
    · right; exact ⟨by rw [e1, e2]; exact h1, LexLe.congr ht h2⟩

theorem LexLt.congr : ∀ {b : List (I × Bool)} {r s r' s' : Row I V}, (∀ p ∈ b, r' p.1 = r p.1 ∧ s' p.1 = s p.1) →
    LexLt b r s → LexLt b r' s'
  | [], _, _, _, _, _, h => h
  | (i, asc) :: t, r, s, r', s', h, hl => by
    obtain ⟨e1, e2⟩ := h _ List.mem_cons_self
    simp only at e1 e2
    have ht := fun q hq => h q (List.mem_cons_of_mem _ hq)
    rcases hl with hl | ⟨h1, h2⟩
    · left; rw [e1, e2]; exact hl
    · right; exact ⟨by rw [e1, e2]; exact h1, LexLt.congr ht h2⟩

theorem LexLt.map {J : Type} : ∀ {b : List (I × Bool)} {b' : List (J × Bool)} {r s : Row I V} {r' s' : Row J V},
    List.Forall₂ (fun p q => p.2 = q.2 ∧ r' q.1 = r p.1 ∧ s' q.1 = s p.1) b b' → LexLt b r s → LexLt b' r' s' := by
  intro b b' r s r' s' h
  induction h with
  | nil => intro h; exact h
  | @cons p q b b' h1 h2 ih =>
    obtain ⟨i, asc⟩ := p
    obtain ⟨j, asc'⟩ := q
    obtain ⟨rfl, e1, e2⟩ := h1
    simp only at e1 e2
    intro h
    rcases h with h | ⟨h, h'⟩
    · left; rw [e1, e2]; exact h
    · right; exact ⟨by rw [e1, e2]; exact h, ih h'⟩

theorem LexLt.irrefl : ∀ {b : List (I × Bool)} {r s : Row I V}, LexLt b r s → ¬ ∀ p ∈ b, r p.1 = s p.1
  | [], _, _, h, _ => h
  | (i, asc) :: t, r, s, h, he => by
    have e := he _ List.mem_cons_self
    simp only at e
    rcases h with h | ⟨_, h2⟩
    · rw [e] at h; cases asc <;> exact absurd h (by simp)
    · exact LexLt.irrefl h2 fun p hp => he p (List.mem_cons_of_mem _ hp)

variable [DecidableEq I]

theorem LexLt.to_nub : ∀ {b : List (I × Bool)} {seen : List I} {r s : Row I V}, (∀ i ∈ seen, r i = s i) →
    LexLt b r s → LexLt (nub seen b) r s
  | [], _, _, _, _, h => h
  | (i, asc) :: t, seen, r, s, hs, h => by
    unfold nub
    split
    · rename_i hi
      rcases h with h | ⟨_, h2⟩
      · rw [hs i hi] at h; cases asc <;> exact absurd h (by simp)
      · exact LexLt.to_nub hs h2
    · rcases h with h | ⟨h1, h2⟩
      · exact .inl h
      · refine .inr ⟨h1, LexLt.to_nub (seen := i :: seen) (fun j hj => ?_) h2⟩
        rcases List.mem_cons.mp hj with rfl | hj
        · exact h1
        · exact hs j hj

theorem nub_disjoint : ∀ {b : List (I × Bool)} {seen s : List I}, (∀ p ∈ b, p.1 ∉ s) → nub (seen ++ s) b = nub seen b
  | [], _, _, _ => rfl
  | (i, x) :: t, seen, s, h => by
    unfold nub
    have hi := h _ List.mem_cons_self
    simp only at hi
    have ht := fun q hq => h q (List.mem_cons_of_mem _ hq)
    by_cases hs : i ∈ seen
    · rw [if_pos (List.mem_append.mpr (.inl hs)), if_pos hs, nub_disjoint ht]
    · rw [if_neg (by simp [hs, hi]), if_neg hs, ← List.cons_append, nub_disjoint ht]

/-! ## Joins -/

theorem join_right {o : Orders I} {ls : I → Bool} {p : Row I V → Row I V → Bool} {l r : List (Row I V)} (h : Holds o r)
    (hls : ∀ q ∈ o, ls q.1 = false) : Holds o (joinRows ls p l r) := by
  have hv : ∀ q ∈ o, ∀ x y : Row I V, joinRow ls x y q.1 = y q.1 := by
    intro q hq x y
    simp [joinRow, hls q hq]
  have hd : ∀ q ∈ dirs o, ∀ x y : Row I V, joinRow ls x y q.1 = y q.1 := by
    intro q hq x y
    obtain ⟨z, hz, _⟩ := dirs_mem hq
    exact hv _ hz x y
  refine ⟨?_, ?_⟩
  · unfold Sorted joinRows
    rw [List.pairwise_flatMap]
    refine ⟨?_, ?_⟩
    · intro y _
      refine List.pairwise_of_forall_mem_list fun a ha b hb => ?_
      obtain ⟨x, _, rfl⟩ := List.mem_map.mp ha
      obtain ⟨x', _, rfl⟩ := List.mem_map.mp hb
      exact LexLe.of_eq fun q hq => by rw [hd q hq, hd q hq]
    · refine List.Pairwise.imp ?_ h.1
      intro y y' hl a ha b hb
      obtain ⟨x, _, rfl⟩ := List.mem_map.mp ha
      obtain ⟨x', _, rfl⟩ := List.mem_map.mp hb
      exact LexLe.congr (fun q hq => ⟨hd q hq x y, hd q hq x' y'⟩) hl
  · intro i hi a ha b hb
    obtain ⟨y, hy, ha⟩ := List.mem_flatMap.mp ha
    obtain ⟨y', hy', hb⟩ := List.mem_flatMap.mp hb
    obtain ⟨x, _, rfl⟩ := List.mem_map.mp ha
    obtain ⟨x', _, rfl⟩ := List.mem_map.mp hb
    rw [hv _ hi, hv _ hi]
    exact h.2 i hi y hy y' hy'

/-- ascending by the keys of one side -/
def pk (keys : List (I × I)) : List (I × Bool) := keys.map fun k => (k.1, true)
def ck (keys : List (I × I)) : List (I × Bool) := keys.map fun k => (k.2, true)

theorem ck_to_pk {keys : List (I × I)} {x x' c c' : Row I V} (h : ∀ k ∈ keys, x k.1 = c k.2)
    (h' : ∀ k ∈ keys, x' k.1 = c' k.2) (hl : LexLt (ck keys) c c') : LexLt (pk keys) x x' := by
  refine LexLt.map ?_ hl
  clear hl
  unfold ck pk
  induction keys with
  | nil => exact .nil
  | cons k t ih =>
    exact .cons ⟨rfl, h k List.mem_cons_self, h' k List.mem_cons_self⟩
      (ih (fun q hq => h q (List.mem_cons_of_mem _ hq)) (fun q hq => h' q (List.mem_cons_of_mem _ hq)))

/-- what the pre-condition of one side gives: the orders begin with the keys, or the keys are constant -/
def Begins (b : List (I × Bool)) (o : Orders I) (rows : List (Row I V)) : Prop :=
  nub [] b <+: dirs o ∨ (∀ p ∈ b, ∀ x ∈ rows, ∀ y ∈ rows, x p.1 = y p.1)

theorem begins_of_implied {o : Orders I} {rows : List (Row I V)} {ks : List I} (hu : Uniform o) (hh : Holds o rows)
    (h : impliedBy o 0 (addAll [] (ascKeys ks)) = true) :
    Sorted (ks.map fun k => (k, true)) rows ∧ Begins (ks.map fun k => (k, true)) o rows := by
  have hd := addAll_asc ks []
  simp only [dirs, List.nil_append, List.map_nil] at hd
  obtain ⟨h1, h2⟩ := impliedBy_sound hu hh (r := addAll [] (ascKeys ks)) (by
    intro p hp
    rw [addAll_eq, List.nil_append] at hp
    have := nubO_mem hp
    unfold ascKeys at this
    obtain ⟨k, _, rfl⟩ := List.mem_map.mp this
    simp) h
  rw [hd] at h1 h2
  refine ⟨h1.imp fun r _ s _ hl => LexLe.of_nub (by simp) hl, ?_⟩
  rcases h2 with h2 | ⟨_, h2⟩
  · exact .inl h2
  · refine .inr fun p hp => ?_
    obtain ⟨k, hk, rfl⟩ := List.mem_map.mp hp
    have hk' : (k, Order.asc) ∈ ascKeys ks := List.mem_map.mpr ⟨k, hk, rfl⟩
    rcases nubO_id (s := []) hk' with h | h
    · cases h
    · obtain ⟨q, hq, he⟩ := List.mem_map.mp h
      have := h2 q (by rw [addAll_eq]; simpa using hq)
      simp only at he ⊢
      rw [← he]; exact this

theorem Begins.le {b : List (I × Bool)} {o : Orders I} {rows : List (Row I V)} (h : Begins b o rows) {x y : Row I V}
    (hx : x ∈ rows) (hy : y ∈ rows) (hl : LexLt b x y) (rest : List (I × Bool)) {x' y' : Row I V}
    (hv : ∀ p ∈ b, x' p.1 = x p.1 ∧ y' p.1 = y p.1) : LexLe (dirs o ++ rest) x' y' := by
  rcases h with ⟨t, h⟩ | h
  · rw [← h, List.append_assoc]
    exact LexLt.append _ (LexLt.to_nub (by simp) (LexLt.congr hv hl))
  · exact absurd (fun p hp => h p hp x hx y hy) (LexLt.irrefl hl)

theorem keysMatch_eq {E : Env I V} {keys : List (I × I)} {x y : Row I V} (h : keysMatch E keys x y = true) :
    ∀ k ∈ keys, E.isNull (x k.1) = false ∧ x k.1 = y k.2 := by
  intro k hk
  have := List.all_eq_true.mp h k hk
  simpa using this

theorem smj_holds {E : Env I V} {sl sr : Bool} {ls : I → Bool} {keys : List (I × I)} {ol or' : Orders I}
    {L R : List (Row I V)}
    (hl : sl = false → Holds ol L ∧ Begins (pk keys) ol L)
    (hr : sr = false → Holds or' R ∧ Begins (ck keys) or' R)
    (hR : Sorted (ck keys) R)
    (lsl : ∀ p ∈ ol, ls p.1 = true) (lsr : ∀ p ∈ or', ls p.1 = false)
    (lsk : ∀ k ∈ keys, ls k.1 = true ∧ ls k.2 = false)
    (uniq : ∀ x ∈ L, ∀ y ∈ L, (∀ k ∈ keys, E.isNull (x k.1) = false ∧ x k.1 = y k.1) → x = y) :
    Holds (smjOrders sl sr keys ol or') (joinRows ls (keysMatch E keys) L R) := by
  have vl : ∀ i, ls i = true → ∀ x y : Row I V, joinRow ls x y i = x i := by intro i hi x y; simp [joinRow, hi]
  have vr : ∀ i, ls i = false → ∀ x y : Row I V, joinRow ls x y i = y i := by intro i hi x y; simp [joinRow, hi]
  have hpk : ∀ p ∈ pk keys, ls p.1 = true := by
    intro p hp; unfold pk at hp; obtain ⟨k, hk, rfl⟩ := List.mem_map.mp hp; exact (lsk k hk).1
  have hck : ∀ p ∈ ck keys, ls p.1 = false := by
    intro p hp; unfold ck at hp; obtain ⟨k, hk, rfl⟩ := List.mem_map.mp hp; exact (lsk k hk).2
  have hdl : ∀ p ∈ dirs ol, ls p.1 = true := by
    intro p hp; obtain ⟨z, hz, _⟩ := dirs_mem hp; exact lsl _ hz
  have hdr : ∀ p ∈ dirs or', ls p.1 = false := by
    intro p hp; obtain ⟨z, hz, _⟩ := dirs_mem hp; exact lsr _ hz
  have m1 : (keys.map (·.1)).map (fun k => (k, true)) = pk keys := by simp [pk, Function.comp_def]
  have m2 : (keys.map (·.2)).map (fun k => (k, true)) = ck keys := by simp [ck, Function.comp_def]
  have npk : nub (or'.map (·.1)) (pk keys) = nub [] (pk keys) := by
    have := nub_disjoint (b := pk keys) (seen := []) (s := or'.map (·.1)) (by
      intro p hp hm
      obtain ⟨q, hq, he⟩ := List.mem_map.mp hm
      have h1 := hpk p hp
      have h2 := lsr q hq
      rw [he, h1] at h2; cases h2)
    simpa using this
  have nck : ∀ o : Orders I, (∀ p ∈ o, ls p.1 = true) → nub (o.map (·.1)) (ck keys) = nub [] (ck keys) := by
    intro o ho
    have := nub_disjoint (b := ck keys) (seen := []) (s := o.map (·.1)) (by
      intro p hp hm
      obtain ⟨q, hq, he⟩ := List.mem_map.mp hm
      have h1 := hck p hp
      have h2 := ho q hq
      rw [he, h1] at h2; cases h2)
    simpa using this
  have hadd : ∀ p ∈ addAll ([] : Orders I) (ascKeys (keys.map (·.1))), ls p.1 = true := by
    intro p hp
    rw [addAll_eq, List.nil_append] at hp
    have := nubO_mem hp
    unfold ascKeys at this
    obtain ⟨i, hi, rfl⟩ := List.mem_map.mp this
    obtain ⟨k, hk, rfl⟩ := List.mem_map.mp hi
    exact (lsk k hk).1
  -- the attributes with direction
  have hd : dirs (smjOrders sl sr keys ol or') =
      (if sl then (if sr then nub [] (pk keys) ++ nub [] (ck keys) else dirs or' ++ nub [] (pk keys))
       else (if sr then dirs ol ++ nub [] (ck keys) else dirs ol ++ dirs or')) := by
    unfold smjOrders
    cases sl <;> cases sr
    · simp [dirs_append]
    · simp only [Bool.false_eq_true, if_false, if_true]
      rw [addAll_asc, m2, nck ol lsl]
    · simp only [Bool.false_eq_true, if_false, if_true]
      rw [addAll_asc, m1]
      simp [npk]
    · simp only [if_true]
      rw [addAll_asc, addAll_asc, m1, m2, nck _ hadd]
      simp [dirs]
  -- two rows of the result
  have key : ∀ x ∈ L, ∀ x' ∈ L, ∀ c ∈ R, ∀ c' ∈ R, keysMatch E keys x c = true → keysMatch E keys x' c' = true →
      LexLe (ck keys) c c' → (sr = false → LexLe (dirs or') c c') →
      LexLe (dirs (smjOrders sl sr keys ol or')) (joinRow ls x c) (joinRow ls x' c') := by
    intro x hx x' hx' c hc c' hc' hm hm' hle hro
    have e := keysMatch_eq hm
    have e' := keysMatch_eq hm'
    rw [hd]
    rcases LexLe.cases hle with hlt | heq
    · have hlp : LexLt (pk keys) x x' := ck_to_pk (fun k hk => (e k hk).2) (fun k hk => (e' k hk).2) hlt
      have hvp : ∀ p ∈ pk keys, joinRow ls x c p.1 = x p.1 ∧ joinRow ls x' c' p.1 = x' p.1 :=
        fun p hp => ⟨vl _ (hpk p hp) _ _, vl _ (hpk p hp) _ _⟩
      have hvc : ∀ p ∈ ck keys, joinRow ls x c p.1 = c p.1 ∧ joinRow ls x' c' p.1 = c' p.1 :=
        fun p hp => ⟨vr _ (hck p hp) _ _, vr _ (hck p hp) _ _⟩
      cases sl with
      | false =>
        have := fun rest => (hl rfl).2.le hx hx' hlp rest hvp
        cases sr
        · exact this _
        · exact this _
      | true =>
        cases sr with
        | false => exact (hr rfl).2.le hc hc' hlt _ hvc
        | true => exact LexLt.append _ (LexLt.to_nub (by simp) (LexLt.congr hvp hlp))
    · have hkk : ∀ k ∈ keys, c k.2 = c' k.2 := fun k hk => heq (k.2, true) (List.mem_map.mpr ⟨k, hk, rfl⟩)
      have hxx : x = x' := uniq x hx x' hx' fun k hk => ⟨(e k hk).1, by rw [(e k hk).2, hkk k hk, (e' k hk).2]⟩
      subst hxx
      have hL : ∀ i, ls i = true → joinRow ls x c i = joinRow ls x c' i := fun i hi => by rw [vl i hi, vl i hi]
      have hC : ∀ p ∈ nub [] (ck keys), joinRow ls x c p.1 = joinRow ls x c' p.1 := fun p hp => by
        have hp' := nub_sub hp
        rw [vr _ (hck p hp'), vr _ (hck p hp')]
        exact heq p hp'
      have hP : ∀ p ∈ nub [] (pk keys), joinRow ls x c p.1 = joinRow ls x c' p.1 :=
        fun p hp => hL _ (hpk p (nub_sub hp))
      have hD : ∀ p ∈ dirs ol, joinRow ls x c p.1 = joinRow ls x c' p.1 := fun p hp => hL _ (hdl p hp)
      cases sl with
      | false =>
        cases sr with
        | false =>
          exact LexLe.append_of_eq hD
            (LexLe.congr (fun p hp => ⟨vr _ (hdr p hp) _ _, vr _ (hdr p hp) _ _⟩) (hro rfl))
        | true => exact LexLe.append_of_eq hD (LexLe.of_eq hC)
      | true =>
        cases sr with
        | false =>
          have h1 : LexLe (dirs or') (joinRow ls x c) (joinRow ls x c') :=
            LexLe.congr (fun p hp => ⟨vr _ (hdr p hp) _ _, vr _ (hdr p hp) _ _⟩) (hro rfl)
          rcases LexLe.cases h1 with h1 | h1
          · exact LexLt.append _ h1
          · exact LexLe.append_of_eq h1 (LexLe.of_eq hP)
        | true => exact LexLe.append_of_eq hP (LexLe.of_eq hC)
  refine ⟨?_, ?_⟩
  · unfold Sorted joinRows
    rw [List.pairwise_flatMap]
    refine ⟨?_, ?_⟩
    · intro c hc
      refine List.pairwise_of_forall_mem_list fun a ha b hb => ?_
      obtain ⟨x, hx, rfl⟩ := List.mem_map.mp ha
      obtain ⟨x', hx', rfl⟩ := List.mem_map.mp hb
      obtain ⟨hx, hm⟩ := List.mem_filter.mp hx
      obtain ⟨hx', hm'⟩ := List.mem_filter.mp hx'
      exact key x hx x' hx' c hc c hc hm hm' (LexLe.refl _ _) (fun _ => LexLe.refl _ _)
    · have hboth : R.Pairwise fun c c' => LexLe (ck keys) c c' ∧ (sr = false → LexLe (dirs or') c c') := by
        cases sr with
        | true => exact List.Pairwise.imp (fun h => ⟨h, by simp⟩) hR
        | false =>
          refine List.Pairwise.imp ?_ (List.Pairwise.and hR ((hr rfl).1.1))
          intro a b h
          exact ⟨h.1, fun _ => h.2⟩
      refine List.Pairwise.imp_of_mem ?_ hboth
      intro c c' hc hc' hcc a ha b hb
      obtain ⟨x, hx, rfl⟩ := List.mem_map.mp ha
      obtain ⟨x', hx', rfl⟩ := List.mem_map.mp hb
      obtain ⟨hx, hm⟩ := List.mem_filter.mp hx
      obtain ⟨hx', hm'⟩ := List.mem_filter.mp hx'
      exact key x hx x' hx' c hc c' hc' hm hm' hcc.1 hcc.2
  · intro i hi a ha b hb
    obtain ⟨c, hc, ha⟩ := List.mem_flatMap.mp ha
    obtain ⟨c', hc', hb⟩ := List.mem_flatMap.mp hb
    obtain ⟨x, hx, rfl⟩ := List.mem_map.mp ha
    obtain ⟨x', hx', rfl⟩ := List.mem_map.mp hb
    obtain ⟨hx, _⟩ := List.mem_filter.mp hx
    obtain ⟨hx', _⟩ := List.mem_filter.mp hx'
    have hasc : ∀ {o : Orders I} {ks : List I}, (i, Order.undef) ∈ addAll o (ascKeys ks) → (i, Order.undef) ∈ o := by
      intro o ks h
      rw [addAll_eq] at h
      rcases List.mem_append.mp h with h | h
      · exact h
      · have := nubO_mem h
        unfold ascKeys at this
        obtain ⟨k, _, he⟩ := List.mem_map.mp this
        cases he
    have hcase : (sl = false ∧ (i, Order.undef) ∈ ol) ∨ (sr = false ∧ (i, Order.undef) ∈ or') := by
      unfold smjOrders at hi
      cases sl <;> cases sr <;> simp only [Bool.false_eq_true, if_false, if_true, List.nil_append] at hi
      · rcases List.mem_append.mp hi with h | h
        · exact .inl ⟨rfl, h⟩
        · exact .inr ⟨rfl, h⟩
      · exact .inl ⟨rfl, hasc hi⟩
      · exact .inr ⟨rfl, hasc hi⟩
      · exact absurd (hasc (hasc hi)) (by simp)
    rcases hcase with ⟨h1, h2⟩ | ⟨h1, h2⟩
    · rw [vl _ (lsl _ h2), vl _ (lsl _ h2)]
      exact (hl h1).1.2 i h2 x hx x' hx'
    · rw [vr _ (lsr _ h2), vr _ (lsr _ h2)]
      exact (hr h1).1.2 i h2 c hc c' hc'

/-! ## All operators -/

theorem scanOrders_dirs (declared : List (I × Bool)) : ∀ schema : List I, ∀ q ∈ dirs (scanOrders declared schema),
    q ∈ declared := by
  intro schema
  induction schema with
  | nil => intro q hq; cases hq
  | cons i t ih =>
    intro q hq
    unfold scanOrders at hq
    cases hf : declared.find? (fun p => decide (p.1 = i)) with
    | none => rw [hf] at hq; exact ih q hq
    | some p =>
      rw [hf] at hq
      have hm := List.mem_of_find?_eq_some hf
      have hp : p.1 = i := by simpa using List.find?_some hf
      obtain ⟨j, b⟩ := p
      simp only at hp
      subst hp
      cases b <;> simp only [dir, if_true, Bool.false_eq_true, if_false, dirs, List.mem_cons] at hq
      · rcases hq with rfl | hq
        · exact hm
        · exact ih q hq
      · rcases hq with rfl | hq
        · exact hm
        · exact ih q hq

theorem scanOrders_undef (declared : List (I × Bool)) : ∀ (schema : List I) i, (i, Order.undef) ∉ scanOrders declared schema := by
  intro schema
  induction schema with
  | nil => intro i h; cases h
  | cons j t ih =>
    intro i h
    unfold scanOrders at h
    cases hf : declared.find? (fun p => decide (p.1 = j)) with
    | none => rw [hf] at h; exact ih i h
    | some p =>
      rw [hf] at h
      rcases List.mem_cons.mp h with h | h
      · injection h with _ h
        unfold dir at h
        split at h <;> cases h
      · exact ih i h

/-- every attribute is sorted for itself, so the rows are sorted lexicographically -/
theorem sorted_each {rows : List (Row I V)} : ∀ {b : List (I × Bool)}, (∀ p ∈ b, Sorted [p] rows) → Sorted b rows
  | [], _ => List.pairwise_of_forall_mem_list fun _ _ _ _ => trivial
  | p :: t, h => by
    have h1 := h p List.mem_cons_self
    have h2 := sorted_each (b := t) fun q hq => h q (List.mem_cons_of_mem _ hq)
    refine List.Pairwise.imp ?_ (List.Pairwise.and h1 h2)
    rintro a b ⟨ha, hb⟩
    obtain ⟨i, asc⟩ := p
    rcases ha with ha | ⟨ha, _⟩
    · exact .inl ha
    · exact .inr ⟨ha, hb⟩

theorem condImplied_some {r : Orders I} {c : Option (Orders I)} (h : condImplied (some r) c = true) :
    ∃ o, c = some o ∧ impliedBy o 0 r = true := by
  cases c with
  | none => simp [condImplied] at h
  | some o => exact ⟨o, rfl, h⟩

theorem group_found {o : Orders I} {keys : List (I × I)}
    (h : impliedBy o 0 (addAll [] (keys.map fun p => (p.1, Order.undef))) = true) :
    ∀ p ∈ keys, (find o p.1 0).isSome = true := by
  intro p hp
  have hm : (p.1, Order.undef) ∈ keys.map fun p => (p.1, Order.undef) := List.mem_map.mpr ⟨p, hp, rfl⟩
  rcases nubO_id (s := []) hm with h' | h'
  · cases h'
  · obtain ⟨q, hq, he⟩ := List.mem_map.mp h'
    obtain ⟨m, y, hf⟩ := impliedBy_found h q (by rw [addAll_eq]; simpa using hq)
    simp only at he
    rw [← he, hf]; rfl

theorem quicksort_holds {E : Env I V} (hE : EnvOK E) (b : List (I × Bool)) (rows : List (Row I V)) :
    Holds (orderBy b) (E.sort b rows) := by
  refine ⟨?_, fun i hi => absurd hi (orderBy_undef b i)⟩
  rw [dirs_orderBy]
  exact (hE.sorted b rows).imp fun r _ s _ h => LexLe.to_nub (by simp) h

theorem smj_pre {E : Env I V} (hE : EnvOK E) {sl sr : Bool} {ls : I → Bool} {keys : List (I × I)} {l r : Plan I V}
    (hl : HoldsOpt (post l) (run E l)) (hr : HoldsOpt (post r) (run E r))
    (h : (condImplied (smjPre sl sr keys false) (post l) && condImplied (smjPre sl sr keys true) (post r)) = true)
    (hul : sl = false → UniformOpt (post l)) (hur : sr = false → UniformOpt (post r)) :
    (sl = false → Sorted (pk keys) (run E l) ∧ Holds ((post l).getD []) (run E l) ∧ Begins (pk keys) ((post l).getD []) (run E l)) ∧
    (sr = false → Sorted (ck keys) (run E r) ∧ Holds ((post r).getD []) (run E r) ∧ Begins (ck keys) ((post r).getD []) (run E r)) := by
  have m1 : (keys.map (·.1)).map (fun k => (k, true)) = pk keys := by simp [pk, Function.comp_def]
  have m2 : (keys.map (·.2)).map (fun k => (k, true)) = ck keys := by simp [ck, Function.comp_def]
  simp only [Bool.and_eq_true] at h
  obtain ⟨h1, h2⟩ := h
  constructor
  · rintro rfl
    simp only [smjPre, Bool.false_and, Bool.not_false, Bool.and_self, if_true, Bool.false_eq_true, if_false] at h1
    obtain ⟨o, ho, hi⟩ := condImplied_some h1
    have hh := hl o ho
    obtain ⟨g1, g2⟩ := begins_of_implied (hul rfl o ho) hh hi
    rw [m1] at g1 g2
    rw [ho]
    exact ⟨g1, hh, g2⟩
  · rintro rfl
    simp only [smjPre, Bool.and_false, Bool.not_true, Bool.false_and, Bool.false_eq_true, if_false, Bool.not_false,
      Bool.and_self, if_true] at h2
    obtain ⟨o, ho, hi⟩ := condImplied_some h2
    have hh := hr o ho
    obtain ⟨g1, g2⟩ := begins_of_implied (hur rfl o ho) hh hi
    rw [m2] at g1 g2
    rw [ho]
    exact ⟨g1, hh, g2⟩

theorem claims {E : Env I V} (hE : EnvOK E) : (P : Plan I V) → WellFormed E P → admitted P = true → Careful P →
    HoldsOpt (post P) (run E P)
  | .scan schema declared rows, hw, _, _ => by
    intro o ho
    simp only [post] at ho
    split at ho
    · cases ho
    · injection ho with ho
      subst ho
      exact ⟨sorted_each fun p hp => hw p (scanOrders_dirs declared schema p hp),
        fun i hi => absurd hi (scanOrders_undef declared schema i)⟩
  | .indexScan id rows, hw, _, _ => by
    intro o ho
    simp only [post] at ho
    injection ho with ho
    subst ho
    exact ⟨hw, fun i hi => by simp at hi⟩
  | .single r, _, _, _ => by intro o ho; simp [post] at ho
  | .filter p c, hw, ha, hc => by
    intro o ho
    exact (claims hE c hw ha hc o ho).sublist List.filter_sublist
  | .limit a b c, hw, ha, hc => by
    intro o ho
    exact (claims hE c hw ha hc o ho).sublist ((List.take_sublist _ _).trans (List.drop_sublist _ _))
  | .project items c, hw, ha, hc => by
    intro o ho
    simp only [post, Option.map_eq_some_iff] at ho
    obtain ⟨o', ho', rfl⟩ := ho
    refine (claims hE c hw ha hc.1 o' ho').rename ?_ (hc.2 o' ho')
    intro r p hp
    simp only [projectRow, old2new_find hp]
  | .hashGroup _ _ _, _, _, _ => by intro o ho; simp [post] at ho
  | .orderedGroup keys agg c, hw, ha, hc => by
    intro o ho
    simp only [admitted, Bool.and_eq_true] at ha
    obtain ⟨o', ho', hi⟩ := condImplied_some ha.2
    have hh := claims hE c hw ha.1 hc.1 o' ho'
    have hf := group_found hi
    simp only [post, ho', Option.getD_some] at ho
    injection ho with ho
    subst ho
    rw [groupOrders_nil hf]
    have hsub : Holds o' ((orderedGroups keys (run E c)).map fun g => g.1) := hh.sublist orderedGroups_heads
    have := hsub.rename (f := fun r => fun i => match keys.find? (fun p => decide (p.2 = i)) with
      | none => r i
      | some p => r p.1) (items := old2new [] keys) (fun r p hp => by simp only [old2new_find hp]) (hc.2.2 o' ho')
    -- the rows of the result agree with these on the aliases
    have hal : ∀ q ∈ projectAndRename o' (old2new [] keys), ∃ p ∈ old2new [] keys, p.2 = q.1 := by
      have gen : ∀ its : List (I × I), ∀ q ∈ projectAndRename o' its, ∃ p ∈ its, p.2 = q.1 := by
        intro its
        induction its with
        | nil => intro q hq; cases hq
        | cons p t ih =>
          intro q hq
          obtain ⟨u, v⟩ := p
          unfold projectAndRename at hq
          split at hq
          · obtain ⟨p, hp, he⟩ := ih q hq; exact ⟨p, List.mem_cons_of_mem _ hp, he⟩
          · rcases List.mem_cons.mp hq with rfl | hq
            · exact ⟨_, List.mem_cons_self, rfl⟩
            · obtain ⟨p, hp, he⟩ := ih q hq; exact ⟨p, List.mem_cons_of_mem _ hp, he⟩
      exact gen _
    have hval : ∀ q ∈ projectAndRename o' (old2new [] keys), ∀ g : Row I V × List (Row I V),
        groupRow keys agg g q.1 = (fun i => match keys.find? (fun p => decide (p.2 = i)) with
          | none => g.1 i
          | some p => g.1 p.1) q.1 := by
      intro q hq g
      obtain ⟨p, hp, he⟩ := hal q hq
      have := old2new_find hp
      rw [he] at this
      simp only [groupRow, this]
    rw [List.map_map] at this
    refine ⟨?_, ?_⟩
    · have h1 := this.1
      unfold Sorted at h1 ⊢
      simp only [run]
      rw [List.pairwise_map] at h1 ⊢
      refine List.Pairwise.imp ?_ h1
      intro g g' hl
      refine LexLe.congr (fun q hq => ?_) hl
      obtain ⟨z, hz, _⟩ := dirs_mem hq
      exact ⟨hval _ hz g, hval _ hz g'⟩
    · intro i hi a ha' b hb
      obtain ⟨g, hg, rfl⟩ := List.mem_map.mp ha'
      obtain ⟨g', hg', rfl⟩ := List.mem_map.mp hb
      rw [hval _ hi g, hval _ hi g']
      exact this.2 i hi _ (List.mem_map.mpr ⟨g, hg, rfl⟩) _ (List.mem_map.mpr ⟨g', hg', rfl⟩)
  | .aggregate schema agg c, _, _, _ => by
    intro o ho
    refine ⟨by simp [run, Sorted], ?_⟩
    intro i _ r hr s hs
    simp only [run, List.mem_singleton] at hr hs
    rw [hr, hs]
  | .quicksort b c, _, _, _ => by
    intro o ho
    simp only [post] at ho
    injection ho with ho
    subst ho
    exact quicksort_holds hE b _
  | .noopSort b c, hw, ha, hc => by
    simp only [admitted, Bool.and_eq_true] at ha
    exact claims hE c hw ha.1 hc.1
  | .nlj ls p l r, hw, ha, hc => by
    simp only [admitted, Bool.and_eq_true] at ha
    intro o ho
    simp only [post] at ho
    refine join_right (claims hE r hw.2.1 ha.2 hc.2 o ho) ?_
    have := hw.2.2
    rw [ho] at this
    exact this
  | .hashJoin ls k l r, hw, ha, hc => by
    simp only [admitted, Bool.and_eq_true] at ha
    intro o ho
    simp only [post] at ho
    refine join_right (claims hE r hw.2.1 ha.2 hc.2 o ho) ?_
    have := hw.2.2
    rw [ho] at this
    exact this
  | .smj sl sr ls keys l r, hw, ha, hc => by
    simp only [admitted, Bool.and_eq_true] at ha
    obtain ⟨⟨⟨ha1, ha2⟩, ha3⟩, ha4⟩ := ha
    obtain ⟨hw1, hw2, hw3, hw4, hw5, hw6⟩ := hw
    obtain ⟨hc1, hc2, hc3, hc4⟩ := hc
    intro o ho
    simp only [post] at ho
    injection ho with ho
    subst ho
    obtain ⟨g1, g2⟩ := smj_pre (ls := ls) hE (claims hE l hw1 ha1 hc1) (claims hE r hw2 ha2 hc2) (sl := sl) (sr := sr)
      (by rw [ha3, ha4]; rfl) hc3 hc4
    simp only [run]
    refine smj_holds ?_ ?_ ?_ hw3 hw4 hw5 ?_
    · intro h
      subst h
      simpa using (g1 rfl).2
    · intro h
      subst h
      simpa using (g2 rfl).2
    · cases sr with
      | false => simpa using (g2 rfl).1
      | true => simpa [ck] using hE.sorted _ _
    · intro x hx y hy h
      cases sl with
      | false => exact hw6 x (by simpa using hx) y (by simpa using hy) h
      | true =>
        simp only [if_true] at hx hy
        exact hw6 x ((hE.perm _ _).subset hx) y ((hE.perm _ _).subset hy) h

end Mutable.SortCond
