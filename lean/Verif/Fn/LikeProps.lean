import Verif.Fn.LikeModel
import Mathlib.Data.List.Basic
/-!
# C29: `like` decides the SQL LIKE predicate
-/
namespace Mutable.Fn

/-! ### Specification -/

/-- One element of a LIKE pattern. -/
inductive Item where
  | any            -- `%`
  | one            -- `_`
  | lit (c : Char) -- a character
deriving DecidableEq

/-- A character that is not escaped. -/
def plain (c : Char) : Item := if c = '%' then .any else if c = '_' then .one else .lit c

/-- A LIKE pattern read from left to right; `none` if malformed: an escape character must be followed by `_`, `%` or the
escape character. -/
def readPattern (esc : Char) : List Char → Option (List Item)
  | [] => some []
  | c :: t =>
    if c = esc then
      match t with
      | [] => none
      | d :: t' => if d = '_' ∨ d = '%' ∨ d = esc then (readPattern esc t').map (.lit d :: ·) else none
    else (readPattern esc t).map (plain c :: ·)

/-- The strings a pattern matches. -/
inductive Matches : List Item → List Char → Prop where
  | nil : Matches [] []
  | lit {c p s} : Matches p s → Matches (.lit c :: p) (c :: s)
  | one {c p s} : Matches p s → Matches (.one :: p) (c :: s)
  | any {p s} (w) : Matches p s → Matches (.any :: p) (w ++ s)

/-! ### Proof -/

theorem matches_nil {s} : Matches [] s ↔ s = [] := by
  constructor
  · intro h; cases h; rfl
  · rintro rfl; exact .nil

theorem matches_append {p q : List Item} {s : List Char} :
    Matches (p ++ q) s ↔ ∃ s1 s2, s = s1 ++ s2 ∧ Matches p s1 ∧ Matches q s2 := by
  constructor
  · intro h
    induction p generalizing s with
    | nil => exact ⟨[], s, rfl, .nil, h⟩
    | cons x p ih =>
      cases h with
      | lit h => obtain ⟨a, b, rfl, h1, h2⟩ := ih h; exact ⟨_ :: a, b, rfl, .lit h1, h2⟩
      | one h => obtain ⟨a, b, rfl, h1, h2⟩ := ih h; exact ⟨_ :: a, b, rfl, .one h1, h2⟩
      | any w h => obtain ⟨a, b, rfl, h1, h2⟩ := ih h; exact ⟨w ++ a, b, by simp, .any w h1, h2⟩
  · rintro ⟨s1, s2, rfl, h1, h2⟩
    induction h1 with
    | nil => exact h2
    | lit _ ih => exact .lit ih
    | one _ ih => exact .one ih
    | any w _ ih => rw [List.append_assoc]; exact .any w ih

theorem take_succ_at {l : List Char} {k : Nat} (h : k < l.length) : l.take (k + 1) = l.take k ++ [at' l k] := by
  rw [List.take_add_one]; simp [at', h]

/-- One more character: `any`. -/
theorem match_any_zero {p : List Item} : Matches (p ++ [.any]) [] ↔ Matches p [] := by
  rw [matches_append]
  constructor
  · rintro ⟨a, b, e, h1, -⟩
    obtain ⟨rfl, -⟩ := List.append_eq_nil_iff.1 e.symm
    exact h1
  · intro h; exact ⟨[], [], rfl, h, .any [] .nil⟩

theorem match_single_any {s} : Matches [.any] s := by
  have := Matches.any s .nil; simpa using this

theorem match_any_succ {p : List Item} {s : List Char} {c : Char} :
    Matches (p ++ [.any]) (s ++ [c]) ↔ Matches (p ++ [.any]) s ∨ Matches p (s ++ [c]) := by
  constructor
  · intro h
    obtain ⟨a, b, e, h1, -⟩ := matches_append.1 h
    rcases List.eq_nil_or_concat b with rfl | ⟨b', d, rfl⟩
    · right; rw [e, List.append_nil]; exact h1
    · left
      rw [List.concat_eq_append, ← List.append_assoc] at e
      obtain ⟨rfl, -⟩ := List.append_inj' e rfl
      exact matches_append.2 ⟨a, b', rfl, h1, match_single_any⟩
  · rintro (h | h)
    · obtain ⟨a, b, rfl, h1, -⟩ := matches_append.1 h
      exact matches_append.2 ⟨a, b ++ [c], by simp, h1, match_single_any⟩
    · exact matches_append.2 ⟨_, [], by simp, h, match_single_any⟩

theorem match_single_zero {p : List Item} {x : Item} (hx : x ≠ .any) : ¬ Matches (p ++ [x]) [] := by
  intro h
  obtain ⟨a, b, e, -, h2⟩ := matches_append.1 h
  obtain ⟨-, rfl⟩ := List.append_eq_nil_iff.1 e.symm
  cases x with
  | any => exact hx rfl
  | one => cases h2
  | lit c => cases h2

theorem match_one_succ {p : List Item} {s : List Char} {c : Char} :
    Matches (p ++ [.one]) (s ++ [c]) ↔ Matches p s := by
  rw [matches_append]
  constructor
  · rintro ⟨a, b, e, h1, h2⟩
    cases h2 with
    | one h => obtain rfl := matches_nil.1 h; obtain ⟨rfl, -⟩ := List.append_inj' e rfl; exact h1
  · intro h; exact ⟨s, [c], rfl, h, .one .nil⟩

theorem match_lit_succ {p : List Item} {s : List Char} {c d : Char} :
    Matches (p ++ [.lit d]) (s ++ [c]) ↔ c = d ∧ Matches p s := by
  rw [matches_append]
  constructor
  · rintro ⟨a, b, e, h1, h2⟩
    cases h2 with
    | lit h =>
      obtain rfl := matches_nil.1 h
      obtain ⟨rfl, e2⟩ := List.append_inj' e rfl
      exact ⟨by simpa using e2, h1⟩
  · rintro ⟨rfl, h⟩; exact ⟨s, [c], rfl, h, .lit .nil⟩

/-! #### Loops -/

theorem loop_ind {σ : Type} {body : Nat → σ → σ} (P : Nat → σ → Prop) {lo n : Nat} {s : σ} (h0 : P lo s)
    (hs : ∀ i s, lo ≤ i → i < lo + n → P i s → P (i + 1) (body i s)) : P (lo + n) (loop body lo n s) := by
  induction n generalizing lo s with
  | zero => exact h0
  | succ n ih =>
    have := ih (lo := lo + 1) (s := body lo s) (hs lo s (by omega) (by omega) h0)
      (fun i s h1 h2 => hs i s (by omega) (by omega))
    simpa [loop, Nat.add_assoc, Nat.add_comm 1 n] using this

/-- The items read so far (`pend`: the last character was an escape character). -/
def ReadSoFar (esc : Char) (pat : List Char) (xs : List Item) (pend : Bool) (i : Nat) : Prop :=
  readPattern esc pat = (readPattern esc (if pend then esc :: pat.drop i else pat.drop i)).map (xs ++ ·)

theorem drop_at {l : List Char} {k : Nat} (h : k < l.length) : l.drop k = at' l k :: l.drop (k + 1) := by
  rw [List.drop_eq_getElem_cons h]; simp [at', h]

theorem ReadSoFar.step {esc pat xs pend i} (h : ReadSoFar esc pat xs pend i) (hi : i < pat.length) :
    (pend = true → (at' pat i = '_' ∨ at' pat i = '%' ∨ at' pat i = esc) → ReadSoFar esc pat (xs ++ [.lit (at' pat i)]) false (i + 1)) ∧
    (pend = true → ¬ (at' pat i = '_' ∨ at' pat i = '%' ∨ at' pat i = esc) → readPattern esc pat = none) ∧
    (pend = false → at' pat i = esc → ReadSoFar esc pat xs true (i + 1)) ∧
    (pend = false → at' pat i ≠ esc → ReadSoFar esc pat (xs ++ [plain (at' pat i)]) false (i + 1)) := by
  unfold ReadSoFar at *
  refine ⟨?_, ?_, ?_, ?_⟩
  · rintro rfl hc
    rw [h, if_pos rfl, drop_at hi]
    simp only [readPattern, if_true, if_pos hc]
    rw [if_neg (by simp)]
    rcases readPattern esc (pat.drop (i + 1)) with _ | _ <;> simp
  · rintro rfl hc
    rw [h, if_pos rfl, drop_at hi]
    simp only [readPattern, if_true, if_neg hc]; rfl
  · rintro rfl hc
    rw [h, drop_at hi, hc]; simp
  · rintro rfl hc
    rw [h, if_neg (by simp), if_neg (by simp), drop_at hi]
    have : readPattern esc (at' pat i :: pat.drop (i + 1)) = (readPattern esc (pat.drop (i + 1))).map (plain (at' pat i) :: ·) := by
      cases hd : pat.drop (i + 1) <;> simp [readPattern, hc]
    rw [this]
    rcases readPattern esc (pat.drop (i + 1)) with _ | _ <;> simp

/-- What has been read after `i` characters, and whether the last one is an escape character. -/
def pstate (esc : Char) (pat : List Char) : Nat → List Item × Bool
  | 0 => ([], false)
  | i + 1 =>
    let r := pstate esc pat i
    if r.2 then (r.1 ++ [.lit (at' pat i)], false)
    else if at' pat i = esc then (r.1, true) else (r.1 ++ [plain (at' pat i)], false)

/-- Invariant of the first loop. -/
structure Inv1 (str pat : List Char) (esc : Char) (i : Nat) (s : Table × Nat × Bool) : Prop where
  thrown : s.2.2 = true → readPattern esc pat = none
  read : s.2.2 = false → ReadSoFar esc pat (pstate esc pat (i - 1)).1 (pstate esc pat (i - 1)).2 (i - 1)
  le : s.2.2 = false → s.2.1 ≤ i
  row : s.2.2 = false → (s.2.1 = i ↔ (pstate esc pat (i - 1)).2 = true)
  zero : ∀ j ≤ str.length, (s.1 0 j = true ↔ j = 0)
  col : s.2.2 = false → ∀ k, k < i → (pstate esc pat k).2 = false → (s.1 k 0 = true ↔ Matches (pstate esc pat k).1 [])

theorem body1_inv {str pat esc i s} (h1 : 1 ≤ i) (h2 : i < 1 + pat.length) (I : Inv1 str pat esc i s) :
    Inv1 str pat esc (i + 1) (likeBody1 pat esc i s) := by
  obtain ⟨t, er, th⟩ := s
  obtain ⟨k, rfl⟩ : ∃ k, i = k + 1 := ⟨i - 1, by omega⟩
  cases th with
  | true =>
    have e : likeBody1 pat esc (k + 1) (t, er, true) = (t, er, true) := by simp [likeBody1]
    rw [e]
    exact ⟨I.thrown, by simp, by simp, by simp, I.zero, by simp⟩
  | false =>
    have hr := I.read rfl
    have hrow := I.row rfl
    have hle := I.le rfl
    have hcol := I.col rfl
    have hst := hr.step (by omega)
    have hz := I.zero
    simp only [Nat.add_sub_cancel] at hr hrow hle hcol hst hz
    have hz' : ∀ b, ∀ j ≤ str.length, ((Table.put t (k + 1) 0 b) 0 j = true ↔ j = 0) := by
      intro b j hj; simp [Table.put, hz j hj]
    generalize hp : pstate esc pat k = r at *
    obtain ⟨xs, pend⟩ := r
    simp only at *
    cases pend with
    | true =>
      have her : k + 1 = er := (hrow.2 rfl).symm
      subst her
      by_cases hc : at' pat k = '_' ∨ at' pat k = '%' ∨ at' pat k = esc
      · have hc' : ('_' = at' pat k ∨ '%' = at' pat k ∨ esc = at' pat k) := by
          rcases hc with h | h | h <;> simp [h]
        have hp' : pstate esc pat (k + 1) = (xs ++ [.lit (at' pat k)], false) := by simp [pstate, hp]
        have e : likeBody1 pat esc (k + 1) (t, k + 1, false) = (t.put (k + 1) 0 false, k + 1, false) := by
          simp only [likeBody1, Nat.add_sub_cancel]
          rw [if_neg (by simp), if_neg]
          · simp
          · simp only [decide_true, Bool.true_and, Bool.and_eq_true, decide_eq_true_eq, not_and]
            rintro ⟨a, b⟩ c; rcases hc' with h | h | h
            · exact absurd h a
            · exact absurd h b
            · exact absurd h c
        rw [e]
        refine ⟨by simp, fun _ => ?_, fun _ => by simp, fun _ => ?_, hz' false, fun _ j hj hpj => ?_⟩
        · simp only [Nat.add_sub_cancel, hp']; exact hst.1 rfl hc
        · simp [hp']
        · by_cases hjk : j = k + 1
          · subst hjk
            rw [hp']
            simp only [Table.put, true_and, if_true, Bool.false_eq_true, false_iff]
            exact match_single_zero (by simp)
          · simp only [Table.put, hjk, false_and, if_false]; exact hcol j (by omega) hpj
      · have hc' : ¬ ('_' = at' pat k) ∧ ¬ ('%' = at' pat k) ∧ ¬ (esc = at' pat k) := by
          push Not at hc; exact ⟨fun h => hc.1 h.symm, fun h => hc.2.1 h.symm, fun h => hc.2.2 h.symm⟩
        have e : likeBody1 pat esc (k + 1) (t, k + 1, false) = (t, k + 1, true) := by
          simp [likeBody1, hc'.1, hc'.2.1, hc'.2.2]
        rw [e]
        exact ⟨fun _ => hst.2.1 rfl hc, by simp, by simp, by simp, hz, by simp⟩
    | false =>
      have her : ¬ (k + 1 = er) := fun h => by simp [h] at hrow
      have e : likeBody1 pat esc (k + 1) (t, er, false) = (t.put (k + 1) 0 (if '%' = at' pat k then t k 0 else false), if esc = at' pat k then k + 1 + 1 else er, false) := by
        simp [likeBody1, her]
      rw [e]
      have hk := hcol k (by omega) (by rw [hp])
      rw [hp] at hk
      by_cases hc : at' pat k = esc
      · have hp' : pstate esc pat (k + 1) = (xs, true) := by simp [pstate, hp, hc]
        rw [if_pos hc.symm]
        refine ⟨by simp, fun _ => ?_, fun _ => by simp, fun _ => ?_, by simp only; exact hz' _, fun _ j hj hpj => ?_⟩
        · simp only [Nat.add_sub_cancel, hp']; exact hst.2.2.1 rfl hc
        · simp [hp']
        · by_cases hjk : j = k + 1
          · subst hjk; rw [hp'] at hpj; simp at hpj
          · simp only [Table.put, hjk, false_and, if_false]; exact hcol j (by omega) hpj
      · have hp' : pstate esc pat (k + 1) = (xs ++ [plain (at' pat k)], false) := by simp [pstate, hp, hc]
        rw [if_neg (c := esc = _) (fun h => hc h.symm)]
        refine ⟨by simp, fun _ => ?_, fun _ => by simp; omega, fun _ => ?_, by simp only; exact hz' _, fun _ j hj hpj => ?_⟩
        · simp only [Nat.add_sub_cancel, hp']; exact hst.2.2.2 rfl hc
        · simp [hp']; omega
        · by_cases hjk : j = k + 1
          · subst hjk
            rw [hp']
            simp only [Table.put, true_and, if_true]
            by_cases h3 : '%' = at' pat k
            · rw [if_pos h3, hk, ← h3]; simp only [plain, if_true]; exact match_any_zero.symm
            · rw [if_neg h3]
              simp only [Bool.false_eq_true, false_iff]
              refine match_single_zero ?_
              unfold plain; rw [if_neg (fun h => h3 h.symm)]; split <;> simp
          · simp only [Table.put, hjk, false_and, if_false]; exact hcol j (by omega) hpj

/-- Invariant of the second loop. -/
structure Inv2 (str pat : List Char) (esc : Char) (i : Nat) (s : Table × Nat) : Prop where
  le : s.2 ≤ i
  row : s.2 = i ↔ (pstate esc pat (i - 1)).2 = true
  prev : ∀ j ≤ str.length, (s.1 (i - 1) j = true ↔ Matches (pstate esc pat (i - 1)).1 (str.take j))
  col : ∀ k, i ≤ k → k ≤ pat.length → (pstate esc pat k).2 = false → (s.1 k 0 = true ↔ Matches (pstate esc pat k).1 [])

theorem body2_inv {str pat esc i s} (h1 : 1 ≤ i) (h2 : i < 1 + pat.length) (I : Inv2 str pat esc i s) :
    Inv2 str pat esc (i + 1) (likeBody2 str pat esc i s) := by
  obtain ⟨t, er⟩ := s
  obtain ⟨k, rfl⟩ : ∃ k, i = k + 1 := ⟨i - 1, by omega⟩
  obtain ⟨hle, hrow, hprev, hcol⟩ := I
  simp only [Nat.add_sub_cancel] at hle hrow hprev hcol
  -- the two inner loops only write row `k + 1`
  by_cases hcopy : er ≠ k + 1 ∧ esc = at' pat k
  · obtain ⟨hne, hc⟩ := hcopy
    have hpf : (pstate esc pat k).2 = false := by
      rw [← Bool.not_eq_true, ← hrow]; exact hne
    have hp' : pstate esc pat (k + 1) = ((pstate esc pat k).1, true) := by simp [pstate, hpf, ← hc]
    have e : likeBody2 str pat esc (k + 1) (t, er) = (loop (fun j t => Table.put t (k + 1) j (t k j)) 0 (str.length + 1) t, k + 1 + 1) := by
      simp [likeBody2, ← hc, Ne.symm hne]
    have L := loop_ind (body := fun j (t : Table) => Table.put t (k + 1) j (t k j))
      (fun j (t' : Table) => (∀ a b, a ≠ k + 1 → t' a b = t a b) ∧ ∀ b, b < j → t' (k + 1) b = t k b) (lo := 0) (n := str.length + 1) (s := t)
      ⟨fun _ _ _ => rfl, by simp⟩ (by
        rintro j t' - - ⟨a1, a2⟩
        refine ⟨fun a b ha => by simp [Table.put, ha, a1 a b ha], fun b hb => ?_⟩
        by_cases hbj : b = j
        · subst hbj; simp [Table.put, a1 k b (by omega)]
        · simp [Table.put, hbj, a2 b (by omega)])
    rw [e]
    refine ⟨by simp, ?_, ?_, ?_⟩
    · simp [hp']
    · intro j hj
      simp only [Nat.add_sub_cancel, hp']
      rw [L.2 j (by omega)]; exact hprev j hj
    · intro a ha hal hpa
      simp only
      rw [L.1 a 0 (by omega)]; exact hcol a (by omega) hal hpa
  · -- the ordinary case
    have e : likeBody2 str pat esc (k + 1) (t, er) = (loop (likeCell str (decide (k + 1 = er)) (at' pat k) (k + 1)) 1 str.length t, er) := by
      simp only [likeBody2, Nat.add_sub_cancel]
      rw [if_neg]
      simp only [Bool.and_eq_true, Bool.not_eq_true', decide_eq_false_iff_not, decide_eq_true_eq]
      exact fun h => hcopy ⟨fun h' => h.1 h'.symm, h.2⟩
    obtain ⟨x, hp', hx⟩ : ∃ x, pstate esc pat (k + 1) = ((pstate esc pat k).1 ++ [x], false) ∧
        x = if k + 1 = er then .lit (at' pat k) else plain (at' pat k) := by
      by_cases her : er = k + 1
      · exact ⟨.lit (at' pat k), by simp [pstate, hrow.1 her], by simp [her]⟩
      · have hpf : (pstate esc pat k).2 = false := by
          rw [← Bool.not_eq_true, ← hrow]; exact her
        have : at' pat k ≠ esc := fun h => hcopy ⟨her, h.symm⟩
        exact ⟨plain (at' pat k), by simp [pstate, hpf, this], by simp [Ne.symm her]⟩
    generalize hq : (pstate esc pat k).1 = p at *
    have hcell : ∀ j t', j ≤ str.length → 1 ≤ j → (t' : Table) k j = t k j → t' k (j - 1) = t k (j - 1) →
        (t' (k + 1) (j - 1) = true ↔ Matches (p ++ [x]) (str.take (j - 1))) →
        ∃ b, likeCell str (decide (k + 1 = er)) (at' pat k) (k + 1) j t' = t'.put (k + 1) j b ∧
          (b = true ↔ Matches (p ++ [x]) (str.take j)) := by
      intro j t' hj hj1 e1 e2 e3
      obtain ⟨j, rfl⟩ : ∃ m, j = m + 1 := ⟨j - 1, by omega⟩
      simp only [Nat.add_sub_cancel] at e2 e3
      have hs := take_succ_at (l := str) (k := j) (by omega)
      have q1 := hprev (j + 1) hj
      have q2 := hprev j (by omega)
      rw [hs] at q1 ⊢
      unfold likeCell
      simp only [Nat.add_sub_cancel]
      by_cases ha : ¬ (k + 1 = er) ∧ '%' = at' pat k
      · have hxa : x = .any := by rw [hx, if_neg ha.1, plain, if_pos ha.2.symm]
        refine ⟨_, if_pos (by simp [ha.1, ← ha.2]), ?_⟩
        rw [hxa] at e3 ⊢
        rw [match_any_succ, Bool.or_eq_true, e1, e3, q1]
      · rw [if_neg (by simpa using ha)]
        by_cases hb : ¬ (k + 1 = er) ∧ '_' = at' pat k
        · have hxa : x = .one := by
            rw [hx, if_neg hb.1, plain, ← hb.2]; simp
          refine ⟨_, if_pos (by simp [hb.1, ← hb.2]), ?_⟩
          rw [hxa, match_one_succ, e2, q2]
        · have hxa : x = .lit (at' pat k) := by
            rw [hx]; split
            · rfl
            · next h =>
              unfold plain
              rw [if_neg (fun h' => ha ⟨h, h'.symm⟩), if_neg (fun h' => hb ⟨h, h'.symm⟩)]
          rw [hxa, match_lit_succ]
          by_cases hd : at' str j = at' pat k
          · refine ⟨_, if_pos (by simp [hd]), ?_⟩
            rw [e2, q2]; simp [hd]
          · refine ⟨_, if_neg ?_, by simp [hd]⟩
            simp only [Bool.or_eq_true, Bool.and_eq_true, Bool.not_eq_true', decide_eq_false_iff_not, decide_eq_true_eq, not_or]
            exact ⟨hb, hd⟩
    have L := loop_ind (body := likeCell str (decide (k + 1 = er)) (at' pat k) (k + 1))
      (fun j (t' : Table) => (∀ a b, a ≠ k + 1 → t' a b = t a b) ∧ ∀ b, b < j → (t' (k + 1) b = true ↔ Matches (p ++ [x]) (str.take b)))
      (lo := 1) (n := str.length) (s := t)
      ⟨fun _ _ _ => rfl, fun b hb => by
        obtain rfl : b = 0 := by omega
        have := hcol (k + 1) (by omega) (by omega) (by rw [hp'])
        rw [hp'] at this; simpa using this⟩ (by
        rintro j t' hj1 hj2 ⟨a1, a2⟩
        obtain ⟨b, e4, hb⟩ := hcell j t' (by omega) hj1 (a1 k j (by omega)) (a1 k (j - 1) (by omega)) (a2 (j - 1) (by omega))
        rw [e4]
        refine ⟨fun a b ha => by simp [Table.put, ha, a1 a b ha], fun b' hb' => ?_⟩
        by_cases hbj : b' = j
        · subst hbj; simpa [Table.put] using hb
        · simp only [Table.put, hbj, and_false, if_false]; exact a2 b' (by omega))
    rw [e]
    refine ⟨by simp; omega, ?_, ?_, ?_⟩
    · simp [hp']; omega
    · intro j hj
      simp only [Nat.add_sub_cancel, hp']
      exact L.2 j (by omega)
    · intro a ha hal hpa
      simp only
      rw [L.1 a 0 (by omega)]; exact hcol a (by omega) hal hpa

/-! ### The property -/

/-- For every string, pattern and legal escape character, `like` throws exactly on malformed patterns and otherwise
decides whether the string matches — whatever the uninitialised table contains. -/
theorem C29_like (g : Table) (str pat : List Char) (esc : Char) (_he1 : esc ≠ '_') (_he2 : esc ≠ '%') :
    match readPattern esc pat with
    | none => like g str pat esc = none
    | some items => ∃ b, like g str pat esc = some b ∧ (b = true ↔ Matches items str) := by
  have L0 := loop_ind (body := fun j (t : Table) => Table.put t 0 j false)
    (fun j (t' : Table) => ∀ b, b < j → (t' 0 b = true ↔ b = 0)) (lo := 1) (n := str.length) (s := g.put 0 0 true)
    (fun b hb => by obtain rfl : b = 0 := by omega
                    simp [Table.put]) (by
      intro j t' h1 _ h b hb
      by_cases hbj : b = j
      · subst hbj; simp [Table.put]; omega
      · simp only [Table.put, hbj, and_false, if_false]; exact h b (by omega))
  generalize ht : loop (fun j (t : Table) => Table.put t 0 j false) 1 str.length (g.put 0 0 true) = t0 at L0
  have L1 := loop_ind (body := likeBody1 pat esc) (Inv1 str pat esc) (lo := 1) (n := pat.length) (s := (t0, 0, false))
    ⟨by simp, fun _ => by simp [ReadSoFar, pstate], by simp, by simp [pstate], fun j hj => L0 j (by omega), by
      intro _ k hk _
      obtain rfl : k = 0 := by omega
      simp [pstate, (L0 0 (by omega)), matches_nil]⟩ (fun i s h1 h2 => body1_inv h1 h2)
  generalize hr : loop (likeBody1 pat esc) 1 pat.length (t0, 0, false) = r at L1
  have e : like g str pat esc = if r.2.2 || decide (pat.length + 1 = r.2.1) then none else
      some ((loop (likeBody2 str pat esc) 1 pat.length (r.1, 0)).1 pat.length str.length) := by
    simp only [like, ht, hr]
  rw [e]
  obtain ⟨t, er, th⟩ := r
  have hN : 1 + pat.length - 1 = pat.length := by omega
  cases th with
  | true => rw [L1.thrown rfl]; simp
  | false =>
    have hrd := L1.read rfl
    have hrow := L1.row rfl
    have hcol := L1.col rfl
    rw [hN] at hrd hrow
    simp only at hrow hcol
    cases hpd : (pstate esc pat pat.length).2 with
    | true =>
      have h3 := hrow.2 hpd
      have h4 : readPattern esc pat = none := by
        rw [hrd, hpd]; simp [readPattern]
      rw [h4]
      simp only [Bool.false_or, decide_eq_true_eq]
      rw [if_pos (by omega)]
    | false =>
      have h3 : ¬ (er = 1 + pat.length) := fun h => by rw [hrow, hpd] at h; simp at h
      have h4 : readPattern esc pat = some (pstate esc pat pat.length).1 := by
        rw [hrd, hpd]; simp [readPattern]
      rw [h4]
      simp only [Bool.false_or, decide_eq_true_eq]
      rw [if_neg (by omega)]
      refine ⟨_, rfl, ?_⟩
      have L2 := loop_ind (body := likeBody2 str pat esc) (Inv2 str pat esc) (lo := 1) (n := pat.length) (s := (t, 0))
        ⟨by simp, by simp [pstate], by
          intro j hj
          have := L1.zero j hj
          simp only [Nat.sub_self, pstate, matches_nil, List.take_eq_nil_iff]
          rw [this]
          constructor
          · exact Or.inl
          · rintro (h | h)
            · exact h
            · simp [h] at hj; exact hj, by
          intro k h1 h2 h5
          exact hcol k (by omega) h5⟩ (fun i s h1 h2 => body2_inv h1 h2)
      have := L2.prev str.length (by omega)
      rw [hN] at this
      simpa using this

/-- The result does not depend on the uninitialised table. -/
theorem C29_deterministic (g g' : Table) (str pat : List Char) (esc : Char) (_he1 : esc ≠ '_') (_he2 : esc ≠ '%') :
    like g str pat esc = like g' str pat esc := by
  have h1 := C29_like g str pat esc _he1 _he2
  have h2 := C29_like g' str pat esc _he1 _he2
  cases h : readPattern esc pat with
  | none => rw [h] at h1 h2; simp only at h1 h2; rw [h1, h2]
  | some xs =>
    rw [h] at h1 h2
    obtain ⟨b, e1, i1⟩ := h1
    obtain ⟨b', e2, i2⟩ := h2
    rw [e1, e2]
    have : b = true ↔ b' = true := i1.trans i2.symm
    cases b <;> cases b' <;> simp_all

/-! ### Witnesses -/

example : readPattern '\\' "a%\\_b".toList = some [.lit 'a', .any, .lit '_', .lit 'b'] := by decide
example : Matches [.lit 'a', .any, .lit '_', .lit 'b'] "axyz_b".toList :=
  .lit (.any ['x', 'y', 'z'] (.lit (.lit .nil)))
example : like (fun _ _ => true) "axyz_b".toList "a%\\_b".toList = some true := by decide +kernel
example : like (fun _ _ => true) "axyzb".toList "a%\\_b".toList = some false := by decide +kernel
example : like (fun _ _ => false) "a".toList "a\\".toList = none := by decide +kernel

end Mutable.Fn
