import Verif.WasmHT.Seq

/-! # The chained hash table -/

namespace Mutable.WasmHT
namespace CH

variable {K V : Type} {c : Cfg K} {t : CH K V}

theorem flatMap_put {α : Type} (f : Nat → List α) (b : Nat) (e : α) :
    ∀ l : List Nat, l.Nodup → b ∈ l → (l.flatMap (put f b (e :: f b))).Perm (e :: l.flatMap f) := by
  intro l
  induction l with
  | nil => intro _ h; cases h
  | cons x l ih =>
    intro hnd hb
    rw [List.nodup_cons] at hnd
    rw [List.flatMap_cons, List.flatMap_cons]
    by_cases hx : x = b
    · subst hx
      rw [OA.put_same]
      have : l.flatMap (put f x (e :: f x)) = l.flatMap f := by
        apply List.flatMap_congr
        intro y hy
        apply OA.put_ne
        rintro rfl
        exact hnd.1 hy
      rw [this]; rfl
    · rw [OA.put_ne _ _ hx]
      refine ((ih hnd.2 ((List.mem_cons.1 hb).resolve_left fun h => hx h.symm)).append_left _).trans ?_
      exact List.perm_middle

theorem bucket_lt {n : Nat} (k : K) : bucket c (2 ^ n) k < 2 ^ n := OA.bucket_lt k

/-- Every capacity is a power of two. -/
def Pow (t : CH K V) : Prop := ∃ n, t.cap = 2 ^ n

theorem Pow.bucket_lt (h : Pow t) (k : K) : bucket c t.cap k < t.cap := by
  obtain ⟨n, hn⟩ := h; rw [hn]; exact CH.bucket_lt k

/-- Inserting at the front of a list. -/
theorem forEach_put (t : CH K V) {b : Nat} (hb : b < t.cap) (e : K × V) :
    (forEach { t with bk := put t.bk b (e :: t.bk b) }).Perm (e :: forEach t) := by
  unfold forEach
  exact flatMap_put t.bk b e _ List.nodup_range (List.mem_range.2 hb)

theorem forEach_emplaceNoRehash (h : Pow t) (e : K × V) :
    (forEach (emplaceNoRehash c t e)).Perm (e :: forEach t) :=
  forEach_put t (h.bucket_lt e.1) e

theorem map_visited (t : CH K V) : (visited t).map (·.2) = forEach t := by
  unfold visited forEach
  rw [List.map_flatMap]
  simp

theorem relink_perm (mem : Nat → K) {n : Nat} (es : List (Nat × (K × V))) (bk : Nat → List (K × V)) :
    ((List.range (2 ^ n)).flatMap (es.foldl (relink c mem (2 ^ n)) bk)).Perm
      (es.map (·.2) ++ (List.range (2 ^ n)).flatMap bk) := by
  induction es generalizing bk with
  | nil => exact .refl _
  | cons x es ih =>
    rw [List.foldl_cons]
    refine (ih _).trans ?_
    unfold relink
    simp only
    refine ((flatMap_put bk _ x.2 _ List.nodup_range
      (List.mem_range.2 (bucket_lt (mem x.1)))).append_left _).trans ?_
    rw [List.map_cons, List.cons_append]
    exact List.perm_middle

theorem rehash_cap (h : Pow t) (mem : Nat → K) : (rehash c mem t).cap = 2 * t.cap := by
  obtain ⟨n, hn⟩ := h
  unfold rehash
  have := Nat.two_pow_pos n
  show ((t.cap - 1) * 2 + 1) + 1 = _
  omega

theorem rehash_perm (h : Pow t) (mem : Nat → K) : (forEach (rehash c mem t)).Perm (forEach t) := by
  have hc := rehash_cap (c := c) h mem
  obtain ⟨n, hn⟩ := h
  have hc2 : ((t.cap - 1) * 2 + 1) + 1 = 2 ^ (n + 1) := by
    have : ((t.cap - 1) * 2 + 1) + 1 = 2 * t.cap := hc
    rw [this, hn, pow_succ]; omega
  have := relink_perm (c := c) mem (n := n + 1) (visited t) (fun _ => [])
  unfold rehash forEach
  simp only [hc2]
  refine this.trans ?_
  rw [map_visited]
  have hnil : ∀ l : List Nat, l.flatMap (fun _ => ([] : List (K × V))) = [] := by
    intro l; rw [List.flatMap_eq_nil_iff]; intros; rfl
  rw [hnil, List.append_nil]
  exact .refl _

theorem rehash_pow (h : Pow t) (mem : Nat → K) : Pow (rehash c mem t) := by
  have hc := rehash_cap (c := c) h mem
  obtain ⟨n, hn⟩ := h
  exact ⟨n + 1, by rw [hc, hn, pow_succ]; omega⟩

theorem grow_perm (h : Pow t) (mem : Nat → K) :
    Pow (grow c mem t) ∧ (forEach (grow c mem t)).Perm (forEach t) := by
  unfold grow
  split
  · exact ⟨rehash_pow (c := c) h mem, rehash_perm h mem⟩
  · exact ⟨h, .refl _⟩

/-- No entry is ever lost: `for_each` enumerates everything that was inserted. -/
theorem emplaces_perm (mem : Nat → Nat → K) (es : List (K × V)) : ∀ {t : CH K V}, Pow t →
    (forEach (emplaces c mem t es)).Perm (es ++ forEach t) := by
  induction es with
  | nil => intro t _; exact .refl _
  | cons e es ih =>
    intro t h
    have hg := grow_perm (c := c) h (mem es.length)
    rw [emplaces]
    have hp : Pow (emplace c (mem es.length) t e) := hg.1
    refine (ih hp).trans ?_
    have := (forEach_emplaceNoRehash (c := c) hg.1 e).trans (hg.2.cons e)
    refine (this.append_left es).trans ?_
    exact List.perm_middle

/-- All entries are in the bucket of their key. -/
def Home (c : Cfg K) (t : CH K V) : Prop := ∀ b, ∀ e ∈ t.bk b, bucket c t.cap e.1 = b

theorem Home.emplaceNoRehash (h : Home c t) (e : K × V) : Home c (emplaceNoRehash c t e) := by
  intro b e' he'
  simp only [CH.emplaceNoRehash] at he' ⊢
  by_cases hb : b = bucket c t.cap e.1
  · rw [hb, OA.put_same] at he'
    rcases List.mem_cons.1 he' with rfl | he'
    · exact hb.symm
    · rw [hb]; exact h _ e' he'
  · rw [OA.put_ne _ _ hb] at he'; exact h b e' he'

theorem emplaces_home (mem : Nat → Nat → K) (es : List (K × V)) : ∀ {t : CH K V}, Home c t →
    t.num + es.length ≤ t.hwm → Home c (emplaces c mem t es) := by
  induction es with
  | nil => intro t h _; exact h
  | cons e es ih =>
    intro t h hlen
    simp only [List.length_cons] at hlen
    have hg : grow c (mem es.length) t = t := by
      unfold grow; rw [if_neg (by omega)]
    rw [emplaces, emplace, hg]
    exact ih (h.emplaceNoRehash e) (by
      show t.num + 1 + es.length ≤ t.hwm; omega)

theorem filter_flatMap_home {α : Type} (p : α → Bool) (f : Nat → List α) (b : Nat) (l : List Nat)
    (hnd : l.Nodup) (hb : b ∈ l) (h : ∀ x ∈ l, x ≠ b → ∀ e ∈ f x, p e = false) :
    (l.flatMap f).filter p = (f b).filter p := by
  induction l with
  | nil => cases hb
  | cons x l ih =>
    rw [List.nodup_cons] at hnd
    rw [List.flatMap_cons, List.filter_append]
    by_cases hx : x = b
    · subst hx
      have : (l.flatMap f).filter p = [] := by
        rw [List.filter_eq_nil_iff]
        intro e he
        obtain ⟨y, hy, he⟩ := List.mem_flatMap.1 he
        have := h y (List.mem_cons_of_mem _ hy) (by rintro rfl; exact hnd.1 hy) e he
        simp [this]
      rw [this, List.append_nil]
    · have h1 : (f x).filter p = [] := by
        rw [List.filter_eq_nil_iff]
        intro e he
        simp [h x List.mem_cons_self hx e he]
      rw [h1, List.nil_append]
      exact ih hnd.2 ((List.mem_cons.1 hb).resolve_left fun h => hx h.symm)
        fun y hy => h y (List.mem_cons_of_mem _ hy)

theorem Home.range_eq (g : Good c) (hp : Pow t) (h : Home c t) (k : K) :
    range c t k = (forEach t).filter fun e => c.eq e.1 k := by
  unfold range forEach
  symm
  apply filter_flatMap_home _ _ _ _ List.nodup_range (List.mem_range.2 (hp.bucket_lt k))
  intro x _ hx e he
  rw [Bool.eq_false_iff]
  intro heq
  apply hx
  rw [← h x e he]
  unfold bucket; rw [g.hash _ _ heq]

theorem find_eq (t : CH K V) (k : K) : find c t k = (range c t k).head? := by
  unfold find range
  rw [List.head?_filter]

/-! ## `try_emplace` without growing -/

theorem upsertList_spec (k : K) (init : V) (upd : V → V) (l : List (K × V)) :
    ((upsertList c k init upd l).2 = true ∧ (∀ e ∈ l, c.eq e.1 k = false) ∧
        (upsertList c k init upd l).1 = l ++ [(k, init)]) ∨
      ((upsertList c k init upd l).2 = false ∧ ∃ l1 e l2, l = l1 ++ e :: l2 ∧ c.eq e.1 k = true ∧
        (upsertList c k init upd l).1 = l1 ++ (e.1, upd e.2) :: l2) := by
  induction l with
  | nil => left; simp [upsertList]
  | cons x l ih =>
    rw [upsertList]
    split
    · next h => right; exact ⟨rfl, [], x, l, rfl, h, rfl⟩
    · next h =>
      rcases ih with ⟨h1, h2, h3⟩ | ⟨h1, l1, e, l2, h2, h3, h4⟩
      · left
        refine ⟨h1, ?_, by simp [h3]⟩
        intro e he
        rcases List.mem_cons.1 he with rfl | he
        · simpa using h
        · exact h2 e he
      · right
        exact ⟨h1, x :: l1, e, l2, by simp [h2], h3, by simp [h4]⟩

theorem flatMap_put_perm {α : Type} (f : Nat → List α) (b : Nat) (m : List α) :
    ∀ l : List Nat, l.Nodup → b ∈ l →
      ∃ rest, (l.flatMap f).Perm (f b ++ rest) ∧ (l.flatMap (put f b m)).Perm (m ++ rest) := by
  intro l
  induction l with
  | nil => intro _ h; cases h
  | cons x l ih =>
    intro hnd hb
    rw [List.nodup_cons] at hnd
    by_cases hx : x = b
    · subst hx
      refine ⟨l.flatMap f, .refl _, ?_⟩
      rw [List.flatMap_cons, OA.put_same]
      have : l.flatMap (put f x m) = l.flatMap f := by
        apply List.flatMap_congr
        intro y hy
        apply OA.put_ne
        rintro rfl
        exact hnd.1 hy
      rw [this]
    · obtain ⟨rest, h1, h2⟩ := ih hnd.2 ((List.mem_cons.1 hb).resolve_left fun h => hx h.symm)
      refine ⟨f x ++ rest, ?_, ?_⟩
      · rw [List.flatMap_cons]
        refine (h1.append_left _).trans ?_
        rw [← List.append_assoc, ← List.append_assoc]
        exact List.perm_append_comm.append_right _
      · rw [List.flatMap_cons, OA.put_ne _ _ hx]
        refine (h2.append_left _).trans ?_
        rw [← List.append_assoc, ← List.append_assoc]
        exact List.perm_append_comm.append_right _

/-- `try_emplace` on a table that does not have to grow. -/
theorem upsert_spec (g : Good c) (hp : Pow t) (h : Home c t) (mem : Nat → K) (k : K) (init : V)
    (upd : V → V) (hroom : t.num ≠ t.hwm) :
    Pow (upsert c mem t k init upd).1 ∧ Home c (upsert c mem t k init upd).1 ∧
    (upsert c mem t k init upd).1.hwm = t.hwm ∧
    (((upsert c mem t k init upd).2 = true ∧ (upsert c mem t k init upd).1.num = t.num + 1 ∧
        (∀ e ∈ forEach t, c.eq e.1 k = false) ∧
        (forEach (upsert c mem t k init upd).1).Perm ((k, init) :: forEach t)) ∨
     ((upsert c mem t k init upd).2 = false ∧ (upsert c mem t k init upd).1.num = t.num ∧
        ∃ e l, c.eq e.1 k = true ∧ (forEach t).Perm (e :: l) ∧
          (forEach (upsert c mem t k init upd).1).Perm ((e.1, upd e.2) :: l))) := by
  have hg : grow c mem t = t := by unfold grow; rw [if_neg hroom]
  unfold upsert
  rw [hg]
  simp only
  have hb := List.mem_range.2 (hp.bucket_lt (c := c) k)
  obtain ⟨rest, r1, r2⟩ := flatMap_put_perm t.bk (bucket c t.cap k)
    (upsertList c k init upd (t.bk (bucket c t.cap k))).1 _ List.nodup_range hb
  rcases upsertList_spec (c := c) k init upd (t.bk (bucket c t.cap k)) with
    ⟨h1, h2, h3⟩ | ⟨h1, l1, e, l2, h2, h3, h4⟩
  · refine ⟨hp, ?_, trivial, .inl ⟨h1, by simp [h1], ?_, ?_⟩⟩
    · intro b e' he'
      simp only at he' ⊢
      by_cases hbb : b = bucket c t.cap k
      · rw [hbb, OA.put_same, h3] at he'
        rcases List.mem_append.1 he' with he' | he'
        · rw [hbb]; exact h _ e' he'
        · rw [List.mem_singleton] at he'; subst he'; exact hbb.symm
      · rw [OA.put_ne _ _ hbb] at he'; exact h b e' he'
    · intro e he
      obtain ⟨b, _, he⟩ := List.mem_flatMap.1 he
      by_cases hbb : b = bucket c t.cap k
      · exact h2 e (hbb ▸ he)
      · rw [Bool.eq_false_iff]
        intro heq
        apply hbb
        rw [← h b e he]
        unfold bucket; rw [g.hash _ _ heq]
    · unfold forEach
      simp only
      refine r2.trans ?_
      rw [h3, List.append_assoc]
      refine List.perm_middle.trans ?_
      exact r1.symm.cons _
  · refine ⟨hp, ?_, trivial, .inr ⟨h1, by simp [h1], e, l1 ++ l2 ++ rest, h3, ?_, ?_⟩⟩
    · intro b e' he'
      simp only at he' ⊢
      by_cases hbb : b = bucket c t.cap k
      · rw [hbb, OA.put_same, h4] at he'
        have hold := h (bucket c t.cap k)
        rw [h2] at hold
        rw [hbb]
        rcases List.mem_append.1 he' with he' | he'
        · exact hold e' (by simp [he'])
        · rcases List.mem_cons.1 he' with rfl | he'
          · exact hold e (by simp)
          · exact hold e' (by simp [he'])
      · rw [OA.put_ne _ _ hbb] at he'; exact h b e' he'
    · unfold forEach
      refine r1.trans ?_
      rw [h2, List.append_assoc, List.append_assoc]
      exact List.perm_middle
    · unfold forEach
      simp only
      refine r2.trans ?_
      rw [h4, List.append_assoc, List.append_assoc]
      exact List.perm_middle

/-- A grouping on a table that does not have to grow. -/
theorem upserts_repr {X : Type} (g : Good c) (mem : Nat → Nat → K) (init : X → V) (upd : X → V → V)
    (rows : List (K × X)) : ∀ {t : CH K V} (done : List (K × X)), Pow t → Home c t →
      t.num + rows.length ≤ t.hwm → OA.Repr c (forEach t) (OA.groupValue c.eq init upd done) →
      OA.Repr c (forEach (upserts c mem init upd t rows))
        (OA.groupValue c.eq init upd (done ++ rows)) := by
  induction rows with
  | nil => intro t done _ _ _ hr; simpa [upserts] using hr
  | cons r rows ih =>
    intro t done hp hh hlen hr
    simp only [List.length_cons] at hlen
    obtain ⟨k, x⟩ := r
    obtain ⟨p1, h1, w1, hcase⟩ := upsert_spec g hp hh (mem rows.length) k (init x) (upd x) (by omega)
    have hstep := OA.Repr.step g init upd done (k, x) (ins := (upsert c (mem rows.length) t k (init x) (upd x)).2)
      hr (l1 := forEach (upsert c (mem rows.length) t k (init x) (upd x)).1) (by
        rcases hcase with ⟨a1, -, a2, a3⟩ | ⟨a1, -, a2⟩
        · exact .inl ⟨a1, a2, a3⟩
        · exact .inr ⟨a1, a2⟩)
    have hnum : (upsert c (mem rows.length) t k (init x) (upd x)).1.num ≤ t.num + 1 := by
      rcases hcase with ⟨-, a1, -⟩ | ⟨-, a1, -⟩ <;> omega
    have := ih (done ++ [(k, x)]) p1 h1 (by omega) hstep.1
    rw [upserts]
    simpa using this

/-! ## The defect of `rehash` -/

/-- After `rehash` all entries of an old bucket are in the same new bucket. -/
theorem foldl_relink_same (mem : Nat → K) (cap : Nat) (es : List (Nat × (K × V))) :
    ∀ (bk : Nat → List (K × V)) (b' : Nat) (e : K × V),
      e ∈ es.foldl (relink c mem cap) bk b' →
      e ∈ bk b' ∨ ∃ b, (b, e) ∈ es ∧ b' = bucket c cap (mem b) := by
  induction es with
  | nil => intro bk b' e h; exact .inl h
  | cons x es ih =>
    intro bk b' e h
    rw [List.foldl_cons] at h
    rcases ih _ _ _ h with h | ⟨b, hb, hb'⟩
    · unfold relink at h
      by_cases hb : b' = bucket c cap (mem x.1)
      · rw [hb, OA.put_same] at h
        rcases List.mem_cons.1 h with rfl | h
        · exact .inr ⟨x.1, by simp, hb⟩
        · rw [hb]; exact .inl h
      · rw [OA.put_ne _ _ hb] at h; exact .inl h
    · exact .inr ⟨b, List.mem_cons_of_mem _ hb, hb'⟩

theorem mem_rehash {mem : Nat → K} {b' : Nat} {e : K × V} (h : e ∈ (rehash c mem t).bk b') :
    ∃ b, b < t.cap ∧ e ∈ t.bk b ∧ b' = bucket c (rehash c mem t).cap (mem b) := by
  unfold rehash at h ⊢
  simp only at h ⊢
  rcases foldl_relink_same (c := c) mem _ _ _ _ _ h with h | ⟨b, hb, hb'⟩
  · cases h
  · unfold visited at hb
    obtain ⟨x, hx, h2⟩ := List.mem_flatMap.1 hb
    obtain ⟨y, hy, h3⟩ := List.mem_map.1 h2
    simp only [Prod.mk.injEq] at h3
    obtain ⟨rfl, rfl⟩ := h3
    exact ⟨x, List.mem_range.1 hx, hy, hb'⟩

end CH
end Mutable.WasmHT
