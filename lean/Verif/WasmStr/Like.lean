import Verif.WasmStr.Kmp
/-! # `LIKE` with a general pattern: the dynamic programming algorithm -/
namespace Mutable.WStr

/-! ### Specification -/

/-- One element of a LIKE pattern. -/
inductive Item where
  | any            -- `%`
  | one            -- `_`
  | lit (c : Byte) -- a character
deriving DecidableEq

/-- A character that is not escaped. -/
def plain (c : Byte) : Item := if c = 37 then .any else if c = 95 then .one else .lit c

/-- A LIKE pattern read from left to right; `none` if malformed: an escape character must be followed by `_`, `%` or the
escape character. -/
def readPattern (esc : Byte) : List Byte → Option (List Item)
  | [] => some []
  | c :: t =>
    if c = esc then
      match t with
      | [] => none
      | d :: t' => if d = 95 ∨ d = 37 ∨ d = esc then (readPattern esc t').map (.lit d :: ·) else none
    else (readPattern esc t).map (plain c :: ·)

/-- The strings a pattern matches. -/
inductive Matches : List Item → List Byte → Prop where
  | nil : Matches [] []
  | lit {c p s} : Matches p s → Matches (.lit c :: p) (c :: s)
  | one {c p s} : Matches p s → Matches (.one :: p) (c :: s)
  | any {p s} (w) : Matches p s → Matches (.any :: p) (w ++ s)

/-! ### Proof -/

theorem matches_nil {s} : Matches [] s ↔ s = [] := by
  constructor
  · intro h; cases h; rfl
  · rintro rfl; exact .nil

theorem matches_append {p q : List Item} {s : List Byte} :
    Matches (p ++ q) s ↔ ∃ s1 s2, s = s1 ++ s2 ∧ Matches p s1 ∧ Matches q s2 := by
  constructor
  · intro h
    induction p generalizing s with
    | nil => exact ⟨[], s, rfl, .nil, h⟩
    | cons x p ih =>
      cases h with
      | lit h => obtain ⟨a, b, rfl, h1, h2⟩ := ih h; exact ⟨_ :: a, b, rfl, .lit h1, h2⟩
      | one h => obtain ⟨a, b, rfl, h1, h2⟩ := ih h; exact ⟨_ :: a, b, rfl, .one h1, h2⟩
      | any w h => obtain ⟨a, b, rfl, h1, h2⟩ := ih h; exact ⟨w ++ a, b, by simp, .any w h1, h2⟩
  · rintro ⟨s1, s2, rfl, h1, h2⟩
    induction h1 with
    | nil => exact h2
    | lit _ ih => exact .lit ih
    | one _ ih => exact .one ih
    | any w _ ih => rw [List.append_assoc]; exact .any w ih

/-- One more character: `any`. -/
theorem match_any_zero {p : List Item} : Matches (p ++ [.any]) [] ↔ Matches p [] := by
  rw [matches_append]
  constructor
  · rintro ⟨a, b, e, h1, -⟩
    obtain ⟨rfl, -⟩ := List.append_eq_nil_iff.1 e.symm
    exact h1
  · intro h; exact ⟨[], [], rfl, h, .any [] .nil⟩

theorem match_single_any {s} : Matches [.any] s := by
  have := Matches.any s .nil; simpa using this

theorem match_any_succ {p : List Item} {s : List Byte} {c : Byte} :
    Matches (p ++ [.any]) (s ++ [c]) ↔ Matches (p ++ [.any]) s ∨ Matches p (s ++ [c]) := by
  constructor
  · intro h
    obtain ⟨a, b, e, h1, -⟩ := matches_append.1 h
    rcases List.eq_nil_or_concat b with rfl | ⟨b', d, rfl⟩
    · right; rw [e, List.append_nil]; exact h1
    · left
      rw [List.concat_eq_append, ← List.append_assoc] at e
      obtain ⟨rfl, -⟩ := List.append_inj' e rfl
      exact matches_append.2 ⟨a, b', rfl, h1, match_single_any⟩
  · rintro (h | h)
    · obtain ⟨a, b, rfl, h1, -⟩ := matches_append.1 h
      exact matches_append.2 ⟨a, b ++ [c], by simp, h1, match_single_any⟩
    · exact matches_append.2 ⟨_, [], by simp, h, match_single_any⟩

theorem match_single_zero {p : List Item} {x : Item} (hx : x ≠ .any) : ¬ Matches (p ++ [x]) [] := by
  intro h
  obtain ⟨a, b, e, -, h2⟩ := matches_append.1 h
  obtain ⟨-, rfl⟩ := List.append_eq_nil_iff.1 e.symm
  cases x with
  | any => exact hx rfl
  | one => cases h2
  | lit c => cases h2

theorem match_one_succ {p : List Item} {s : List Byte} {c : Byte} :
    Matches (p ++ [.one]) (s ++ [c]) ↔ Matches p s := by
  rw [matches_append]
  constructor
  · rintro ⟨a, b, e, h1, h2⟩
    cases h2 with
    | one h => obtain rfl := matches_nil.1 h; obtain ⟨rfl, -⟩ := List.append_inj' e rfl; exact h1
  · intro h; exact ⟨s, [c], rfl, h, .one .nil⟩

theorem match_lit_succ {p : List Item} {s : List Byte} {c d : Byte} :
    Matches (p ++ [.lit d]) (s ++ [c]) ↔ c = d ∧ Matches p s := by
  rw [matches_append]
  constructor
  · rintro ⟨a, b, e, h1, h2⟩
    cases h2 with
    | lit h =>
      obtain rfl := matches_nil.1 h
      obtain ⟨rfl, e2⟩ := List.append_inj' e rfl
      exact ⟨by simpa using e2, h1⟩
  · rintro ⟨rfl, h⟩; exact ⟨s, [c], rfl, h, .lit .nil⟩


theorem readPattern_ne {esc c : Byte} (t : List Byte) (h : c ≠ esc) : readPattern esc (c :: t) = (readPattern esc t).map (plain c :: ·) := by
  cases t <;> simp [readPattern, h]

theorem readPattern_nonempty {esc c : Byte} (t : List Byte) : readPattern esc (c :: t) ≠ some [] := by
  by_cases h : c = esc
  · cases t with
    | nil => simp [readPattern, h]
    | cons d t =>
      simp only [readPattern, h, if_true]
      split <;> simp
  · rw [readPattern_ne t h]; simp

theorem load_lt (s : NChar) {i : Nat} (h : i ≤ s.val.length) : load s.mem s.length i = s.val.getD i 0 := by
  have vl := val_len s
  unfold load
  rw [List.getD_eq_getElem?_getD]
  rcases Nat.lt_or_eq_of_le h with h' | h'
  · rw [if_pos (by omega), List.getElem?_eq_getElem h', ← (val_get s h').1]; rfl
  · rw [List.getElem?_eq_none (by omega)]
    rcases val_end s with e | e
    · rw [if_neg (by omega)]; rfl
    · rw [← h'] at e
      split
      · rw [e]; rfl
      · rfl

/-- Is the byte, with the flag, this item? -/
def itemOf (notEsc : Bool) (c : Byte) : Item := if notEsc then plain c else .lit c

/-- One row of the table. -/
theorem row_spec (s : NChar) (notEsc : Bool) (c : Byte) (hc : c ≠ 0) (B : Nat) (t : Nat → Bool) (its : List Item)
    (hprev : ∀ j, j ≤ s.val.length → (t (B + j) = true ↔ Matches its (s.val.take j)))
    (h0 : t (B + (s.length + 1)) = true ↔ Matches (its ++ [itemOf notEsc c]) [])
    (hf : ∀ j, 1 ≤ j → j ≤ s.val.length → t (B + (s.length + 1) + j) = false) :
    ∃ t', (∀ fuel, s.length + 1 ≤ fuel → row fuel s.mem s.length notEsc c t (B + (s.length + 1) + 1) =
        some ⟨t', B + (s.length + 1) + 1 + s.val.length, s.val.length, s.val.length⟩) ∧
      (∀ j, j ≤ s.val.length → (t' (B + (s.length + 1) + j) = true ↔ Matches (its ++ [itemOf notEsc c]) (s.val.take j))) ∧
      (∀ i, B + 2 * (s.length + 1) ≤ i → t' i = t i) := by
  have vl := val_len s
  obtain ⟨x, x1, ⟨i1, i2, i3, i4, i5, i6⟩, x3⟩ := loopW_spec (cond := fun (q : RowSt) => load s.mem s.length q.str != 0)
    (body := rowBody s.mem s.length notEsc c)
    (fun q => q.str ≤ s.val.length ∧ q.entry = B + (s.length + 1) + 1 + q.str ∧ q.lenStr = q.str ∧
      (∀ j, j ≤ q.str → (q.t (B + (s.length + 1) + j) = true ↔ Matches (its ++ [itemOf notEsc c]) (s.val.take j))) ∧
      (∀ j, q.str < j → j ≤ s.val.length → q.t (B + (s.length + 1) + j) = false) ∧
      (∀ i, (i ≤ B + s.length ∨ B + 2 * (s.length + 1) ≤ i) → q.t i = t i))
    (fun q => s.val.length - q.str) (by
      rintro ⟨q, e, k, n⟩ ⟨i1, i2, i3, i4, i5, i6⟩ hcond
      dsimp only at i1 i2 i3 i4 i5 i6 hcond ⊢
      have hk : k < s.val.length := by
        rcases Nat.lt_or_eq_of_le i1 with h | h
        · exact h
        · rw [load_lt s i1, List.getD_eq_getElem?_getD, List.getElem?_eq_none (by omega)] at hcond
          simp at hcond
      have hld : load s.mem s.length k = s.val[k] := by
        rw [load_lt s i1, List.getD_eq_getElem?_getD, List.getElem?_eq_getElem hk]; rfl
      have htk : s.val.take (k + 1) = s.val.take k ++ [s.val[k]] := take_concat hk
      subst i2 i3
      have e1 : B + (s.length + 1) + 1 + n - (s.length + 1) = B + (n + 1) := by omega
      have e2 : B + (s.length + 1) + 1 + n - 1 = B + (s.length + 1) + n := by omega
      have e3 : B + (s.length + 1) + 1 + n - (s.length + 2) = B + n := by omega
      have c1 : q (B + (n + 1)) = true ↔ Matches its (s.val.take (n + 1)) := by rw [i6 _ (Or.inl (by omega))]; exact hprev _ hk
      have c2 := i4 n le_rfl
      have c3 : q (B + n) = true ↔ Matches its (s.val.take n) := by rw [i6 _ (Or.inl (by omega))]; exact hprev _ (by omega)
      have c4 : q (B + (s.length + 1) + 1 + n) = false := by
        have := i5 (n + 1) (by omega) hk
        rw [← this]; congr 1; omega
      -- the new entry
      have key : (if notEsc && c == percent then q (B + (s.length + 1) + 1 + n - (s.length + 1)) || q (B + (s.length + 1) + 1 + n - 1)
          else if (notEsc && c == underscore) || c == load s.mem s.length n then q (B + (s.length + 1) + 1 + n - (s.length + 2))
          else q (B + (s.length + 1) + 1 + n)) = true ↔ Matches (its ++ [itemOf notEsc c]) (s.val.take (n + 1)) := by
        rw [e1, e2, e3, hld, htk]
        by_cases ha : (notEsc && c == percent) = true
        · rw [if_pos ha]
          simp only [Bool.and_eq_true, beq_iff_eq, percent] at ha
          have hi : itemOf notEsc c = .any := by unfold itemOf plain; rw [if_pos ha.1, if_pos ha.2]
          rw [hi] at c2 ⊢
          rw [match_any_succ, Bool.or_eq_true, c1, c2, htk, or_comm]
        · rw [if_neg ha]
          simp only [Bool.and_eq_true, beq_iff_eq, percent] at ha
          by_cases hu : (notEsc && c == underscore) = true
          · rw [if_pos (by simp [hu])]
            simp only [Bool.and_eq_true, beq_iff_eq, underscore] at hu
            have hi : itemOf notEsc c = .one := by
              unfold itemOf plain
              rw [if_pos hu.1, if_neg (fun h => ha ⟨hu.1, h⟩), if_pos hu.2]
            rw [hi, match_one_succ, c3]
          · have hi : itemOf notEsc c = .lit c := by
              simp only [Bool.and_eq_true, beq_iff_eq, underscore] at hu
              unfold itemOf plain
              cases notEsc with
              | false => rfl
              | true =>
                rw [if_pos rfl, if_neg (fun h => ha ⟨rfl, h⟩), if_neg (fun h => hu ⟨rfl, h⟩)]
            rw [hi, match_lit_succ]
            have hu' : (notEsc && c == underscore) = false := by simpa using hu
            rw [hu', Bool.false_or]
            by_cases hcs : c = s.val[n]
            · rw [if_pos (by simpa using hcs), c3]
              exact ⟨fun h => ⟨hcs.symm, h⟩, fun h => h.2⟩
            · rw [if_neg (by simpa using hcs), c4]
              simp only [Bool.false_eq_true, false_iff, not_and]
              exact fun h => absurd h.symm hcs
      refine ⟨⟨by unfold rowBody; dsimp only; omega, by unfold rowBody; dsimp only; omega, rfl, ?_, ?_, ?_⟩, by unfold rowBody; dsimp only; omega⟩
      · intro j hj
        unfold rowBody at hj ⊢
        dsimp only at hj ⊢
        by_cases hjn : j = n + 1
        · subst hjn
          rw [if_pos (by omega)]; exact key
        · rw [if_neg (by omega)]; exact i4 j (by omega)
      · intro j hj1 hj2
        unfold rowBody at hj1 ⊢
        dsimp only at hj1 ⊢
        rw [if_neg (by omega)]; exact i5 j (by omega) hj2
      · intro i hi
        unfold rowBody
        dsimp only
        rw [if_neg (by omega)]; exact i6 i hi) ⟨t, B + (s.length + 1) + 1, 0, 0⟩
    (by
      refine ⟨Nat.zero_le _, rfl, rfl, fun j hj => ?_, fun j h1 h2 => hf j h1 h2, fun _ _ => rfl⟩
      have : j = 0 := by simpa using hj
      subst this
      simpa using h0)
  have hx : x.str = s.val.length := by
    by_contra hn
    have hk : x.str < s.val.length := by omega
    rw [load_lt s i1, List.getD_eq_getElem?_getD, List.getElem?_eq_getElem hk] at x3
    have := val_noNul s _ (List.getElem_mem hk)
    simp at x3
    exact this x3
  refine ⟨x.t, fun fuel hfu => ?_, fun j hj => i4 j (by omega), fun i hi => i6 i (Or.inr hi)⟩
  unfold row
  rw [x1 fuel (by show s.val.length - 0 < fuel; omega)]
  obtain ⟨xt, xe, xs, xl⟩ := x
  dsimp only at hx i2 i3 ⊢
  subst hx
  rw [i2, i3]

/-- Are all items `%`? -/
def AllAny (its : List Item) : Prop := ∀ x ∈ its, x = .any

theorem matches_empty {its : List Item} : Matches its [] ↔ AllAny its := by
  induction its with
  | nil => simp [AllAny, matches_nil]
  | cons x its ih =>
    constructor
    · intro h
      have h' : Matches ([x] ++ its) [] := h
      obtain ⟨a, b, e, h1, h2⟩ := matches_append.1 h'
      obtain ⟨rfl, rfl⟩ := List.append_eq_nil_iff.1 e.symm
      intro y hy
      rcases List.mem_cons.1 hy with rfl | hy
      · cases y with
        | any => rfl
        | one => cases h1
        | lit c => cases h1
      · exact ih.1 h2 y hy
    · intro h
      have hx : x = .any := h x (by simp)
      subst hx
      exact Matches.any [] (ih.2 fun y hy => h y (by simp [hy]))

theorem allAny_concat {its : List Item} {x : Item} : AllAny (its ++ [x]) ↔ AllAny its ∧ x = .any := by
  constructor
  · intro h; exact ⟨fun y hy => h y (by simp [hy]), h x (by simp)⟩
  · rintro ⟨h, rfl⟩ y hy
    rcases List.mem_append.1 hy with hy | hy
    · exact h y hy
    · simpa using hy

theorem itemOf_any {notEsc : Bool} {c : Byte} : itemOf notEsc c = .any ↔ notEsc = true ∧ c = 37 := by
  unfold itemOf plain
  cases notEsc <;> simp
  split_ifs <;> simp_all

theorem itemOf_false (c : Byte) : itemOf false c = .lit c := rfl
theorem itemOf_true (c : Byte) : itemOf true c = plain c := rfl

/-- The loop over the pattern.  `p`: bytes of the pattern already read; `its`: the items read; `L`: the number of leading percent signs. -/
theorem likeLoop_spec (s p : NChar) (esc : Byte) (he0 : esc ≠ 0) (he1 : esc ≠ 37) (he2 : esc ≠ 95) (L : Nat)
    (hL : ∀ i, i < L → p.val.getD i 0 = 37) (hL2 : p.val.getD L 0 ≠ 37) (hLl : L ≤ p.val.length) : ∀ (n k : Nat) (t : Nat → Bool) (its : List Item) (ln : Nat),
    k + n = p.val.length → its.length ≤ k →
    (∀ j, j ≤ s.val.length → (t (its.length * (s.length + 1) + j) = true ↔ Matches its (s.val.take j))) →
    (∀ r, its.length < r → r ≤ p.length → (t (r * (s.length + 1)) = true ↔ r ≤ L) ∧ ∀ j, 1 ≤ j → j ≤ s.val.length → t (r * (s.length + 1) + j) = false) →
    ((AllAny its ∧ its.length = k ∧ k ≤ L) ∨ (¬ AllAny its ∧ L < its.length)) →
    (its ≠ [] → ln = s.val.length) →
    match readPattern esc (p.val.drop k) with
    | none => ∀ fuel, s.length + n + 2 ≤ fuel → likeLoop s.mem s.length p.mem p.length esc fuel t ((its.length + 1) * (s.length + 1) + 1) k ln = some none
    | some its2 => ∃ t', (∀ fuel, s.length + n + 2 ≤ fuel →
        likeLoop s.mem s.length p.mem p.length esc fuel t ((its.length + 1) * (s.length + 1) + 1) k ln =
          some (some (t', ((its ++ its2).length + 1) * (s.length + 1) + 1, if its ++ its2 = [] then ln else s.val.length))) ∧
        (∀ j, j ≤ s.val.length → (t' ((its ++ its2).length * (s.length + 1) + j) = true ↔ Matches (its ++ its2) (s.val.take j))) := by
  have pl := val_len p
  intro n
  induction n using Nat.strong_induction_on with
  | _ n ih =>
  intro k t its ln hk hil hrow hfut hany hln
  rcases Nat.eq_zero_or_pos n with rfl | hnpos
  · -- the end of the pattern
    have hd : p.val.drop k = [] := List.drop_eq_nil_of_le (by omega)
    rw [hd, readPattern]
    refine ⟨t, fun fuel hf => ?_, ?_⟩
    · obtain ⟨fuel, rfl⟩ : ∃ m, fuel = m + 1 := ⟨fuel - 1, by omega⟩
      have hz : load p.mem p.length k = 0 := by
        rw [load_lt p (by omega), List.getD_eq_getElem?_getD, List.getElem?_eq_none (by omega)]; rfl
      rw [likeLoop, if_pos hz]
      simp only [List.append_nil]
      by_cases hi : its = []
      · rw [if_pos hi]
      · rw [if_neg hi, hln hi]
    · simpa using hrow
  have hkl : k < p.val.length := by omega
  obtain ⟨c, hc⟩ : ∃ c, c = p.val[k] := ⟨_, rfl⟩
  have hd : p.val.drop k = c :: p.val.drop (k + 1) := by rw [hc]; exact List.drop_eq_getElem_cons hkl
  have hld : load p.mem p.length k = c := by
    rw [load_lt p (by omega), List.getD_eq_getElem?_getD, List.getElem?_eq_getElem hkl, hc]; rfl
  have hc0 : c ≠ 0 := by rw [hc]; exact val_noNul p _ (List.getElem_mem hkl)
  have hgetk : p.val.getD k 0 = c := by rw [List.getD_eq_getElem?_getD, List.getElem?_eq_getElem hkl, hc]; rfl
  -- one row and the rest
  have step : ∀ (notEsc : Bool) (d : Byte) (k' : Nat), d ≠ 0 → k < k' → k' ≤ p.val.length → (notEsc = true → d = c ∧ k' = k + 1) → (notEsc = false → c = esc) →
      match readPattern esc (p.val.drop k') with
      | none => ∀ fuel, s.length + n + 2 ≤ fuel + 1 →
          (match row (fuel + 1) s.mem s.length notEsc d t ((its.length + 1) * (s.length + 1) + 1) with
            | none => none
            | some q => likeLoop s.mem s.length p.mem p.length esc fuel q.t (q.entry + (s.length + 1 - q.lenStr)) k' q.lenStr) = some none
      | some its2 => ∃ t', (∀ fuel, s.length + n + 2 ≤ fuel + 1 →
          (match row (fuel + 1) s.mem s.length notEsc d t ((its.length + 1) * (s.length + 1) + 1) with
            | none => none
            | some q => likeLoop s.mem s.length p.mem p.length esc fuel q.t (q.entry + (s.length + 1 - q.lenStr)) k' q.lenStr) =
            some (some (t', ((its ++ itemOf notEsc d :: its2).length + 1) * (s.length + 1) + 1, s.val.length))) ∧
          (∀ j, j ≤ s.val.length → (t' ((its ++ itemOf notEsc d :: its2).length * (s.length + 1) + j) = true ↔
            Matches (its ++ itemOf notEsc d :: its2) (s.val.take j))) := by
    intro notEsc d k' hd0 hk1 hk2 hne hesc
    have hfr := hfut (its.length + 1) (by omega) (by omega)
    have hB : (its.length + 1) * (s.length + 1) = its.length * (s.length + 1) + (s.length + 1) := Nat.succ_mul _ _
    -- is the new item a percent sign?
    have hnew : (AllAny (its ++ [itemOf notEsc d]) ∧ (its ++ [itemOf notEsc d]).length = k' ∧ k' ≤ L) ∨
        (¬ AllAny (its ++ [itemOf notEsc d]) ∧ L < (its ++ [itemOf notEsc d]).length) := by
      rw [List.length_append, List.length_singleton, allAny_concat, itemOf_any]
      rcases hany with ⟨a1, a2, a3⟩ | ⟨a1, a2⟩
      · by_cases hp : notEsc = true ∧ d = 37
        · left
          obtain ⟨e1, e2⟩ := hne hp.1
          refine ⟨⟨a1, hp⟩, by omega, ?_⟩
          by_contra hn
          have : k = L := by omega
          rw [← this, hgetk, ← e1] at hL2
          exact hL2 hp.2
        · right
          refine ⟨fun h => hp h.2, ?_⟩
          by_contra hn
          have hlt : k < L := by omega
          have h37 := hL k hlt
          rw [hgetk] at h37
          cases hb : notEsc with
          | true =>
            obtain ⟨e1, e2⟩ := hne hb
            exact hp ⟨hb, by rw [e1, h37]⟩
          | false => exact he1 (by rw [← hesc hb, h37])
      · exact Or.inr ⟨fun h => a1 h.1, by omega⟩
    obtain ⟨t1, r1, r2, r3⟩ := row_spec s notEsc d hd0 (its.length * (s.length + 1)) t its hrow (by
        rw [← hB, hfr.1, matches_empty]
        rcases hnew with ⟨a1, a2, a3⟩ | ⟨a1, a2⟩
        · simp only [a1, iff_true]; rw [List.length_append, List.length_singleton] at a2; omega
        · simp only [a1, iff_false]; rw [List.length_append, List.length_singleton] at a2; omega) (by
        intro j h1 h2
        rw [← hB]; exact hfr.2 j h1 h2)
    have hlen : (its ++ [itemOf notEsc d]).length = its.length + 1 := by simp
    have sl := val_len s
    have := ih (n - (k' - k)) (by omega) k' t1 (its ++ [itemOf notEsc d]) s.val.length (by omega) (by rw [hlen]; omega)
      (by rw [hlen, hB]; exact r2)
      (by
        intro r hr1 hr2
        rw [hlen] at hr1
        have hge : its.length * (s.length + 1) + 2 * (s.length + 1) ≤ r * (s.length + 1) := by
          rw [← Nat.add_mul]
          exact Nat.mul_le_mul_right _ (by omega)
        have hf' := hfut r (by omega) hr2
        refine ⟨by rw [r3 _ hge]; exact hf'.1, fun j h1 h2 => ?_⟩
        rw [r3 _ (by omega)]; exact hf'.2 j h1 h2) hnew (fun _ => rfl)
    have hent : its.length * (s.length + 1) + (s.length + 1) + 1 + s.val.length + (s.length + 1 - s.val.length) = (its.length + 1 + 1) * (s.length + 1) + 1 := by
      rw [Nat.succ_mul, Nat.succ_mul]; omega
    revert this
    cases readPattern esc (p.val.drop k') with
    | none =>
      intro this fuel hf
      rw [hB, r1 (fuel + 1) (by omega)]
      dsimp only at this ⊢
      rw [hent]
      rw [hlen] at this
      exact this fuel (by omega)
    | some its2 =>
      rintro ⟨t', h1, h2⟩
      have happ : its ++ [itemOf notEsc d] ++ its2 = its ++ itemOf notEsc d :: its2 := by simp
      rw [happ] at h1 h2
      refine ⟨t', fun fuel hf => ?_, h2⟩
      rw [hB, r1 (fuel + 1) (by omega)]
      dsimp only
      rw [hent]
      rw [hlen] at h1
      rw [h1 fuel (by omega), if_neg (by simp)]
  rw [hd]
  by_cases hce : c = esc
  · by_cases hk1 : k + 1 < p.val.length
    · obtain ⟨d, hdd⟩ : ∃ d, d = p.val[k + 1] := ⟨_, rfl⟩
      have hd2 : p.val.drop (k + 1) = d :: p.val.drop (k + 2) := by rw [hdd]; exact List.drop_eq_getElem_cons hk1
      have hld2 : load p.mem p.length (k + 1) = d := by
        rw [load_lt p (by omega), List.getD_eq_getElem?_getD, List.getElem?_eq_getElem hk1, hdd]; rfl
      have hd0 : d ≠ 0 := by rw [hdd]; exact val_noNul p _ (List.getElem_mem hk1)
      rw [hd2, readPattern, if_pos hce]
      by_cases hsp : d = 95 ∨ d = 37 ∨ d = esc
      · simp only [hsp, if_true]
        have hst := step false d (k + 2) hd0 (by omega) (by omega) (by simp) (fun _ => hce)
        have hx : ((d != underscore) && (d != percent) && (d != esc)) = false := by
          unfold underscore percent
          rcases hsp with h | h | h <;> simp [h]
        have hb : (load p.mem p.length k == esc) = true := by rw [hld, hce]; simp
        have hll : ∀ fuel, likeLoop s.mem s.length p.mem p.length esc (fuel + 1) t ((its.length + 1) * (s.length + 1) + 1) k ln =
            (match row (fuel + 1) s.mem s.length false d t ((its.length + 1) * (s.length + 1) + 1) with
            | none => none
            | some q => likeLoop s.mem s.length p.mem p.length esc fuel q.t (q.entry + (s.length + 1 - q.lenStr)) (k + 2) q.lenStr) := by
          intro fuel
          rw [likeLoop, if_neg (by rw [hld]; exact hc0)]
          simp only [hb, if_true, hld2, hx, Bool.and_false, Bool.false_eq_true, if_false, Bool.not_true]
          rfl
        revert hst
        cases readPattern esc (p.val.drop (k + 2)) with
        | none =>
          intro hst
          simp only [Option.map_none]
          intro fuel hf
          obtain ⟨fuel, rfl⟩ : ∃ m, fuel = m + 1 := ⟨fuel - 1, by omega⟩
          rw [hll]; exact hst fuel (by omega)
        | some its2 =>
          rintro ⟨t', h1, h2⟩
          simp only [Option.map_some]
          refine ⟨t', fun fuel hf => ?_, h2⟩
          obtain ⟨fuel, rfl⟩ : ∃ m, fuel = m + 1 := ⟨fuel - 1, by omega⟩
          rw [hll, if_neg (by simp)]; exact h1 fuel (by omega)
      · simp only [hsp, if_false]
        intro fuel hf
        obtain ⟨fuel, rfl⟩ : ∃ m, fuel = m + 1 := ⟨fuel - 1, by omega⟩
        have hx : ((d != underscore) && (d != percent) && (d != esc)) = true := by
          unfold underscore percent
          push Not at hsp
          simp [hsp.1, hsp.2.1, hsp.2.2]
        have hb : (load p.mem p.length k == esc) = true := by rw [hld, hce]; simp
        rw [likeLoop, if_neg (by rw [hld]; exact hc0)]
        simp only [hb, if_true, hld2, hx, Bool.and_true]
    · have hd2 : p.val.drop (k + 1) = [] := List.drop_eq_nil_of_le (by omega)
      have hld2 : load p.mem p.length (k + 1) = 0 := by
        rw [load_lt p (by omega), List.getD_eq_getElem?_getD, List.getElem?_eq_none (by omega)]; rfl
      rw [hd2, readPattern, if_pos hce]
      intro fuel hf
      obtain ⟨fuel, rfl⟩ : ∃ m, fuel = m + 1 := ⟨fuel - 1, by omega⟩
      have hx : (((0 : Byte) != underscore) && ((0 : Byte) != percent) && ((0 : Byte) != esc)) = true := by
        have : (0 : Byte) ≠ esc := fun h => he0 h.symm
        simp [underscore, percent, this]
      have hb : (load p.mem p.length k == esc) = true := by rw [hld, hce]; simp
      rw [likeLoop, if_neg (by rw [hld]; exact hc0)]
      simp only [hb, if_true, hld2, hx, Bool.and_true]
  · rw [readPattern_ne _ hce]
    have hst := step true c (k + 1) hc0 (by omega) (by omega) (fun _ => ⟨rfl, rfl⟩) (by simp)
    rw [itemOf_true] at hst
    have hb : (load p.mem p.length k == esc) = false := by rw [hld]; simpa using hce
    have hll : ∀ fuel, likeLoop s.mem s.length p.mem p.length esc (fuel + 1) t ((its.length + 1) * (s.length + 1) + 1) k ln =
        (match row (fuel + 1) s.mem s.length true c t ((its.length + 1) * (s.length + 1) + 1) with
        | none => none
        | some q => likeLoop s.mem s.length p.mem p.length esc fuel q.t (q.entry + (s.length + 1 - q.lenStr)) (k + 1) q.lenStr) := by
      intro fuel
      rw [likeLoop, if_neg (by rw [hld]; exact hc0)]
      have hb' : (c == esc) = false := by simpa using hce
      simp only [hld, hb', Bool.false_and, Bool.false_eq_true, if_false, Bool.not_false]
      rfl
    revert hst
    cases readPattern esc (p.val.drop (k + 1)) with
    | none =>
      intro hst
      simp only [Option.map_none]
      intro fuel hf
      obtain ⟨fuel, rfl⟩ : ∃ m, fuel = m + 1 := ⟨fuel - 1, by omega⟩
      rw [hll]; exact hst fuel (by omega)
    | some its2 =>
      rintro ⟨t', h1, h2⟩
      simp only [Option.map_some]
      refine ⟨t', fun fuel hf => ?_, h2⟩
      obtain ⟨fuel, rfl⟩ : ∃ m, fuel = m + 1 := ⟨fuel - 1, by omega⟩
      rw [hll, if_neg (by simp)]; exact h1 fuel (by omega)

/-- The number of leading percent signs. -/
def leading (l : List Byte) : Nat := (l.takeWhile (· = 37)).length

theorem leading_spec (l : List Byte) : (∀ i, i < leading l → l.getD i 0 = 37) ∧ l.getD (leading l) 0 ≠ 37 ∧ leading l ≤ l.length := by
  unfold leading
  induction l with
  | nil => simp
  | cons x l ih =>
    by_cases hx : x = 37
    · subst hx
      simp only [List.takeWhile_cons, decide_true, if_true, List.length_cons]
      refine ⟨fun i hi => ?_, ?_, by omega⟩
      · cases i with
        | zero => rfl
        | succ i => rw [List.getD_cons_succ]; exact ih.1 i (by omega)
      · rw [List.getD_cons_succ]; exact ih.2.1
    · simp [List.takeWhile_cons, hx]

/-- The first column. -/
theorem initCol_spec (ls : Nat) (p : NChar) (t : Nat → Bool) :
    ∃ t', (∀ fuel, p.length + 2 ≤ fuel → initCol ls p.mem p.length fuel t = some t') ∧
      (∀ r, r ≤ leading p.val → t' (r * (ls + 1)) = true) ∧ (∀ i, (∀ r, r ≤ leading p.val → i ≠ r * (ls + 1)) → t' i = t i) := by
  obtain ⟨l1, l2, l3⟩ := leading_spec p.val
  generalize leading p.val = L at *
  have pl := val_len p
  obtain ⟨x, x1, ⟨i1, i2, i3, i4, i5⟩, x3⟩ := loopW_spec
    (cond := fun (s : (Nat → Bool) × Nat × Nat × Option Byte) => s.2.2.2.all (· == percent))
    (body := fun s => (fun i => if i = s.2.1 then true else s.1 i, s.2.1 + (ls + 1), s.2.2.1 + 1, some (load p.mem p.length s.2.2.1)))
    (fun s => s.2.2.1 ≤ L + 1 ∧ s.2.1 = s.2.2.1 * (ls + 1) ∧ (∀ r, r < s.2.2.1 → s.1 (r * (ls + 1)) = true) ∧
      (∀ i, (∀ r, r < s.2.2.1 → i ≠ r * (ls + 1)) → s.1 i = t i) ∧
      ((s.2.2.1 = 0 ∧ s.2.2.2 = none) ∨ (0 < s.2.2.1 ∧ s.2.2.2 = some (p.val.getD (s.2.2.1 - 1) 0))))
    (fun s => L + 1 - s.2.2.1) (by
      rintro ⟨q, e, k, b⟩ ⟨i1, i2, i3, i4, i5⟩ hc
      dsimp only at i1 i2 i3 i4 i5 hc ⊢
      have hk : k ≤ L := by
        rcases i5 with ⟨rfl, -⟩ | ⟨h, rfl⟩
        · omega
        · by_contra hn
          have : k - 1 = L := by omega
          rw [this] at hc
          simp only [Option.all_some, beq_iff_eq, percent] at hc
          exact l2 hc
      subst i2
      refine ⟨⟨by omega, by rw [Nat.succ_mul], fun r hr => ?_, fun i hi => ?_, Or.inr ⟨by omega, ?_⟩⟩, by omega⟩
      · by_cases h : r = k
        · subst h; simp
        · rw [i3 r (by omega)]; simp
      · rw [if_neg (hi k (by omega))]
        exact i4 i fun r hr => hi r (by omega)
      · rw [load_lt p (by omega)]; simp) (t, 0, 0, none)
    ⟨by simp, by simp, fun r hr => absurd hr (by simp), fun _ _ => rfl, Or.inl ⟨rfl, rfl⟩⟩
  have hx : x.2.2.1 = L + 1 := by
    rcases i5 with ⟨-, h⟩ | ⟨h0, h⟩
    · rw [h] at x3; simp at x3
    · rw [h] at x3
      simp only [Option.all_some, percent] at x3
      by_contra hn
      have := l1 (x.2.2.1 - 1) (by omega)
      rw [this] at x3
      simp at x3
  refine ⟨x.1, fun fuel hf => ?_, fun r hr => i3 r (by omega), fun i hi => i4 i fun r hr => hi r (by omega)⟩
  unfold initCol
  rw [x1 fuel (by show L + 1 - 0 < fuel; omega)]
  rfl

/-- The general LIKE, for a pattern that is not empty. -/
theorem like_spec (garbage : Nat → Bool) (s p : NChar) (esc : Byte) (he0 : esc ≠ 0) (he1 : esc ≠ 37) (he2 : esc ≠ 95) (hp : p.val ≠ []) :
    match readPattern esc p.val with
    | none => ∀ fuel, s.length + p.length + 2 ≤ fuel → like fuel garbage s p esc = some none
    | some its => ∃ b, (∀ fuel, s.length + p.length + 2 ≤ fuel → like fuel garbage s p esc = some (some b)) ∧ (b = true ↔ Matches its s.val) := by
  have pl := val_len p
  have sl := val_len s
  have hpl : 0 < p.val.length := List.length_pos_iff.2 hp
  obtain ⟨l1, l2, l3⟩ := leading_spec p.val
  obtain ⟨t1, e1, a1, a2⟩ := initCol_spec s.length p (fun i => if i < (s.length + 1) * (p.length + 1) then false else garbage i)
  have hinj : ∀ r r' j, j ≤ s.length → r * (s.length + 1) + j = r' * (s.length + 1) → j = 0 ∧ r = r' := by
    intro r r' j hj h
    rcases Nat.lt_trichotomy r r' with h' | h' | h'
    · have : (r + 1) * (s.length + 1) ≤ r' * (s.length + 1) := Nat.mul_le_mul_right _ h'
      rw [Nat.succ_mul] at this; omega
    · subst h'; omega
    · have : (r' + 1) * (s.length + 1) ≤ r * (s.length + 1) := Nat.mul_le_mul_right _ h'
      rw [Nat.succ_mul] at this; omega
  have hin : ∀ r j, r ≤ p.length → j ≤ s.length → r * (s.length + 1) + j < (s.length + 1) * (p.length + 1) := by
    intro r j hr hj
    have : (r + 1) * (s.length + 1) ≤ (p.length + 1) * (s.length + 1) := Nat.mul_le_mul_right _ (by omega)
    rw [Nat.succ_mul] at this
    rw [Nat.mul_comm (s.length + 1)]; omega
  have cell : ∀ r j, r ≤ p.length → 1 ≤ j → j ≤ s.length → t1 (r * (s.length + 1) + j) = false := by
    intro r j hr hj1 hj2
    rw [a2 _ (fun r' _ h => by have := (hinj r r' j hj2 h).1; omega), if_pos (hin r j hr hj2)]
  have := likeLoop_spec s p esc he0 he1 he2 (leading p.val) l1 l2 l3 p.val.length 0 t1 [] 0 (by omega) (by simp)
    (by
      intro j hj
      rw [matches_nil]
      simp only [List.length_nil, Nat.zero_mul, Nat.zero_add]
      cases j with
      | zero =>
        have := a1 0 (Nat.zero_le _)
        simp only [Nat.zero_mul] at this
        simp [this]
      | succ j =>
        have := cell 0 (j + 1) (Nat.zero_le _) (by omega) (by omega)
        simp only [Nat.zero_mul, Nat.zero_add] at this
        rw [this]
        have : s.val ≠ [] := by intro h; rw [h] at hj; simp at hj
        simp [this])
    (by
      intro r hr1 hr2
      refine ⟨?_, fun j h1 h2 => cell r j hr2 h1 (by omega)⟩
      by_cases h : r ≤ leading p.val
      · simp [h, a1 r h]
      · rw [a2 _ (fun r' hr' he => by
          have := (hinj r r' 0 (Nat.zero_le _) (by simpa using he)).2
          omega), if_pos (by simpa using hin r 0 hr2 (Nat.zero_le _))]
        simp [h])
    (Or.inl ⟨fun x hx => absurd hx (by simp), rfl, Nat.zero_le _⟩) (by simp)
  have hent : ([] : List Item).length + 1 = 1 := rfl
  have hnz : ¬ (s.length = 0 ∧ p.length = 0) := by omega
  have hent2 : (([] : List Item).length + 1) * (s.length + 1) + 1 = s.length + 2 := by simp
  rw [List.drop_zero, hent2] at this
  revert this
  cases hrp : readPattern esc p.val with
  | none =>
    intro this fuel hf
    unfold like likeFn
    rw [if_neg hnz]
    simp only
    rw [e1 fuel (by omega)]
    simp only
    rw [this fuel (by omega)]
    rfl
  | some its =>
    rintro ⟨t', h1, h2⟩
    have hits : its ≠ [] := by
      intro h
      rw [h] at hrp
      cases hpv : p.val with
      | nil => exact hp hpv
      | cons c l => rw [hpv] at hrp; exact readPattern_nonempty l hrp
    simp only [List.nil_append] at h1 h2
    have h3 := h2 s.val.length le_rfl
    rw [List.take_length] at h3
    refine ⟨t' (its.length * (s.length + 1) + s.val.length), fun fuel hf => ?_, h3⟩
    unfold like likeFn
    rw [if_neg hnz]
    simp only
    rw [e1 fuel (by omega)]
    simp only
    rw [h1 fuel (by omega), if_neg hits]
    simp only [Option.map_some]
    congr 3
    rw [Nat.succ_mul]; omega

end Mutable.WStr
