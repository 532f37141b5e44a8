import Verif.PartialPlan.Enum
import Mathlib.Data.Nat.Bitwise
import Mathlib.Tactic.Positivity
/-
The text of the file.
-/
namespace Mutable.PartialPlan

/-- No quotes, escapes and control characters. -/
def Clean (l : List Char) : Prop := ∀ c ∈ l, c ≠ '"' ∧ c ≠ '\\' ∧ 32 ≤ c.toNat

theorem takeWhile_app {α : Type} {p : α → Bool} {l : List α} (h : ∀ x ∈ l, p x = true) {y : α} (hy : p y = false) (r : List α) :
    (l ++ y :: r).takeWhile p = l ∧ (l ++ y :: r).dropWhile p = y :: r := by
  induction l with
  | nil => simp [hy]
  | cons x xs ih =>
    have hx := h x (by simp)
    obtain ⟨h1, h2⟩ := ih (fun z hz => h z (by simp [hz]))
    simp [hx, h1, h2]

theorem parseStr_clean {l : List Char} (h : Clean l) (r : List Char) : parseStr ('"' :: (l ++ '"' :: r)) = some (l, r) := by
  obtain ⟨h1, h2⟩ := takeWhile_app (p := fun c : Char => c != '"') (l := l) (y := '"')
    (fun x hx => by simpa using (h x hx).1) (by simp) r
  unfold parseStr
  simp only [h1, h2]
  have : l.all (fun c => c != '\\' && decide (c.toNat ≥ 32)) = true := by
    rw [List.all_eq_true]
    intro c hc
    obtain ⟨_, a, b⟩ := h c hc
    simp [a, b]
  rw [this]
  rfl

theorem ws_cons_ws {c : Char} (h : isWs c = true) (s : List Char) : ws (c :: s) = ws s := by
  unfold ws; simp [h]

theorem ws_cons_not {c : Char} (h : isWs c = false) (s : List Char) : ws (c :: s) = c :: s := by
  unfold ws; simp [h]

theorem parseElems_ws {α : Type} (p : List Char → Option (α × List Char)) (f : Nat) {c : Char} (h : isWs c = true) (s : List Char) :
    parseElems p f (c :: s) = parseElems p f s := by
  cases f with
  | zero => rfl
  | succ f => simp only [parseElems, ws_cons_ws h]

theorem items_parse {w : Nat → List Char} (hw : ∀ s, Clean (w s)) : ∀ (ss : List Nat) (s : Nat) (r : List Char) (f : Nat), ss.length < f →
    parseElems parseStr f ('"' :: (w s ++ '"' :: (writeItems w false ss ++ (' ' :: ']' :: r)))) = some (w s :: ss.map w, r) := by
  intro ss
  induction ss with
  | nil =>
    intro s r f hf
    obtain ⟨f, rfl⟩ : ∃ g, f = g + 1 := ⟨f - 1, by simp at hf; omega⟩
    rw [parseElems, ws_cons_not (by decide), parseStr_clean (hw s)]
    simp only [writeItems, List.nil_append]
    rw [ws_cons_ws (by decide), ws_cons_not (by decide)]
    rfl
  | cons x xs ih =>
    intro s r f hf
    obtain ⟨f, rfl⟩ : ∃ g, f = g + 1 := ⟨f - 1, by simp at hf; omega⟩
    rw [parseElems, ws_cons_not (by decide), parseStr_clean (hw s)]
    have e : writeItems w false (x :: xs) ++ (' ' :: ']' :: r)
        = ',' :: ' ' :: '"' :: (w x ++ '"' :: (writeItems w false xs ++ (' ' :: ']' :: r))) := by
      simp [writeItems]
    simp only [e]
    rw [ws_cons_not (by decide)]
    simp only
    rw [parseElems_ws _ _ (by decide), ih x r f (by simp at hf; omega)]
    rfl

theorem writeItems_length (w : Nat → List Char) : ∀ (ss : List Nat) (b : Bool), ss.length ≤ (writeItems w b ss).length := by
  intro ss
  induction ss with
  | nil => intro b; simp
  | cons x xs ih =>
    intro b
    have := ih false
    simp only [writeItems, List.length_append, List.length_cons, List.length_nil]
    omega

theorem plan_parse {w : Nat → List Char} (hw : ∀ s, Clean (w s)) (p : List Nat) (r : List Char) :
    parseArr parseStr ('[' :: ' ' :: (writeItems w true p ++ (' ' :: ']' :: r))) = some (p.map w, r) := by
  unfold parseArr
  simp only
  rw [ws_cons_ws (by decide)]
  cases p with
  | nil =>
    simp only [writeItems, List.nil_append]
    rw [ws_cons_ws (by decide), ws_cons_not (by decide)]
    rfl
  | cons x xs =>
    have e : writeItems w true (x :: xs) ++ (' ' :: ']' :: r)
        = '"' :: (w x ++ '"' :: (writeItems w false xs ++ (' ' :: ']' :: r))) := by
      simp [writeItems]
    rw [e, ws_cons_not (by decide)]
    refine (items_parse hw xs x r _ ?_).trans ?_
    rotate_left
    · rfl
    · have := writeItems_length w xs false
      simp only [List.length_append, List.length_cons]
      omega

theorem writePlans_cons (w : Nat → List Char) (b : Bool) (p : List Nat) (ps : List (List Nat)) (r : List Char) :
    (writePlans w b (p :: ps)).1 ++ r = (if b then [] else [',']) ++ ('\n' :: ' ' :: ' ' :: ' ' :: ' ' :: '[' :: ' ' ::
      (writeItems w true p ++ (' ' :: ']' :: ((writePlans w false ps).1 ++ r)))) := by
  simp [writePlans, writePlan]

theorem plans_parse {w : Nat → List Char} (hw : ∀ s, Clean (w s)) : ∀ (ps : List (List Nat)) (p : List Nat) (r : List Char) (f : Nat), ps.length < f →
    parseElems (parseArr parseStr) f ('[' :: ' ' :: (writeItems w true p ++ (' ' :: ']' :: ((writePlans w false ps).1 ++ ('\n' :: ']' :: r)))))
      = some (p.map w :: ps.map (·.map w), r) := by
  intro ps
  induction ps with
  | nil =>
    intro p r f hf
    obtain ⟨f, rfl⟩ : ∃ g, f = g + 1 := ⟨f - 1, by simp at hf; omega⟩
    rw [parseElems, ws_cons_not (by decide), plan_parse hw p]
    simp only [writePlans, List.nil_append]
    rw [ws_cons_ws (by decide), ws_cons_not (by decide)]
    rfl
  | cons x xs ih =>
    intro p r f hf
    obtain ⟨f, rfl⟩ : ∃ g, f = g + 1 := ⟨f - 1, by simp at hf; omega⟩
    rw [parseElems, ws_cons_not (by decide), plan_parse hw p]
    rw [writePlans_cons]
    simp only [Bool.false_eq_true, if_false, List.singleton_append]
    rw [ws_cons_not (by decide)]
    simp only
    repeat rw [parseElems_ws _ _ (c := '\n') (by decide)]
    repeat rw [parseElems_ws _ _ (c := ' ') (by decide)]
    rw [ih x r f (by simp at hf; omega)]
    rfl

theorem writePlans_length (w : Nat → List Char) : ∀ (ps : List (List Nat)) (b : Bool), ps.length ≤ (writePlans w b ps).1.length := by
  intro ps
  induction ps with
  | nil => intro b; simp
  | cons x xs ih =>
    intro b
    have := ih false
    simp only [writePlans, writePlan, List.length_append, List.length_cons]
    have : "\n    ".toList.length = 5 := by decide
    omega

theorem json_first {w : Nat → List Char} (hw : ∀ s, Clean (w s)) (ps : List (List Nat)) :
    parseJSON (writeJSON w true ps).1 = some (ps.map (·.map w)) := by
  have e : (writeJSON w true ps).1 = '[' :: ((writePlans w true ps).1 ++ ['\n', ']', '\n']) := by simp [writeJSON]
  unfold parseJSON
  rw [e, ws_cons_not (by decide)]
  have : parseArr (parseArr parseStr) ('[' :: ((writePlans w true ps).1 ++ ['\n', ']', '\n'])) = some (ps.map (·.map w), ['\n']) := by
    unfold parseArr
    simp only
    cases ps with
    | nil => rfl
    | cons p ps =>
      rw [writePlans_cons]
      simp only [if_true, List.nil_append]
      repeat rw [ws_cons_ws (c := '\n') (by decide)]
      repeat rw [ws_cons_ws (c := ' ') (by decide)]
      rw [ws_cons_not (by decide)]
      have := plans_parse hw ps p ['\n'] ('[' :: ' ' :: (writeItems w true p ++ (' ' :: ']' :: ((writePlans w false ps).1 ++ ['\n', ']', '\n'])))).length
        (by have := writePlans_length w ps false
            simp only [List.length_cons, List.length_append]; omega)
      simp only [List.map_cons]
      rw [← this]
      rfl
  rw [this]
  rfl

theorem json_second {w : Nat → List Char} {ps : List (List Nat)} (h : ps ≠ []) : parseJSON (writeJSON w false ps).1 = none := by
  have e : (writeJSON w false ps).1 = '[' :: ((writePlans w false ps).1 ++ ['\n', ']', '\n']) := by simp [writeJSON]
  obtain ⟨p, ps, rfl⟩ := List.exists_cons_of_ne_nil h
  unfold parseJSON
  rw [e, ws_cons_not (by decide), writePlans_cons]
  simp only [Bool.false_eq_true, if_false, List.singleton_append]
  unfold parseArr
  simp only
  rw [ws_cons_not (by decide)]
  rfl

theorem writePlans_flag (w : Nat → List Char) : ∀ (ps : List (List Nat)) (b : Bool), ps ≠ [] ∨ b = false → (writePlans w b ps).2 = false := by
  intro ps
  induction ps with
  | nil => intro b h; simpa [writePlans] using h
  | cons p ps ih => intro b _; simp only [writePlans, writePlan]; exact ih false (Or.inr rfl)

theorem files_false (w : Nat → List Char) : ∀ (qs : List (List (List Nat))) (i : Nat),
    (writeFiles w false qs)[i]? = qs[i]?.map (fun q => (writeJSON w false q).1) := by
  intro qs
  induction qs with
  | nil => intro i; rfl
  | cons q qs ih =>
    intro i
    have : (writeJSON w false q).2 = false := writePlans_flag w q false (Or.inr rfl)
    simp only [writeFiles, this]
    cases i with
    | zero => rfl
    | succ i => simpa using ih i

/-! ### Prefix notation -/

theorem singleton_pow {s : Nat} (h : isSingleton s = true) : s = 2 ^ first s := by
  unfold isSingleton at h
  simp at h
  obtain ⟨h0, h1⟩ := h
  have hl : s.testBit s.log2 = true := by rw [Nat.testBit_log2 h0]
  apply Nat.eq_of_testBit_eq
  intro i
  unfold first
  rw [Nat.testBit_two_pow]
  by_cases hi : s.log2 = i
  · subst hi; simp [hl]
  · simp only [hi, decide_false]
    cases hb : s.testBit i with
    | false => rfl
    | true =>
      exfalso
      -- the bit log2 is set in s - 1 as well
      have hlt : i < s.log2 := by
        have := Nat.le_log2 h0 |>.mpr (Nat.ge_two_pow_of_testBit hb)
        omega
      have hle : 2 ^ s.log2 ≤ s := Nat.log2_self_le h0
      have hne : s ≠ 2 ^ s.log2 := by
        intro he
        rw [he, Nat.testBit_two_pow] at hb
        simp only [decide_eq_true_eq] at hb
        omega
      have hub : s < 2 ^ (s.log2 + 1) := Nat.lt_log2_self
      have hsub : (s - 1).testBit s.log2 = true := by
        rw [Nat.testBit_eq_decide_div_mod_eq]
        have : (s - 1) / 2 ^ s.log2 = 1 := by
          rw [Nat.div_eq_iff (by positivity)]
          rw [Nat.pow_succ] at hub
          omega
        rw [this]; rfl
      have := Nat.testBit_and s (s - 1) s.log2
      rw [h1, hl, hsub] at this
      simp at this

theorem read_name {n : List Char} (hs : ∀ c ∈ n, c ≠ ' ') (hn : n ≠ ['@']) (d : Nat) (r : List Char) (hr : r = [] ∨ ∃ r', r = ' ' :: r') :
    readTerm (d + 1) (n ++ r) = some (.rel n, r) := by
  have e : ((n ++ r).takeWhile (· != ' '), (n ++ r).dropWhile (· != ' ')) = (n, r) := by
    rcases hr with rfl | ⟨r', rfl⟩
    · have h : ∀ x ∈ n, (x != ' ') = true := fun x hx => by simpa using hs x hx
      rw [List.append_nil]
      have h12 : n.takeWhile (· != ' ') = n ∧ n.dropWhile (· != ' ') = [] := by
        clear hn hs
        induction n with
        | nil => exact ⟨rfl, rfl⟩
        | cons x xs ih =>
          obtain ⟨a, b⟩ := ih (fun y hy => h y (by simp [hy]))
          have := h x (by simp)
          simp only [List.takeWhile_cons, List.dropWhile_cons, this, if_true, a, b, and_self]
      rw [h12.1, h12.2]
    · obtain ⟨h1, h2⟩ := takeWhile_app (p := fun c : Char => c != ' ') (l := n) (y := ' ') (fun x hx => by simpa using hs x hx) (by simp) r'
      rw [h1, h2]
  obtain ⟨e1, e2⟩ := Prod.mk.inj e
  rw [readTerm]
  · rw [e1, e2]
  · intro s hh
    cases n with
    | nil =>
      rcases hr with rfl | ⟨r', rfl⟩
      · simp at hh
      · simp at hh
    | cons c cs =>
      simp only [List.cons_append, List.cons.injEq] at hh
      obtain ⟨rfl, hh⟩ := hh
      cases cs with
      | nil => exact hn rfl
      | cons c' cs =>
        simp only [List.cons_append, List.cons.injEq] at hh
        exact hs c' (by simp) hh.1

theorem tree_reads {pt : PT} {name : Nat → List Char} (hs : ∀ i, ∀ c ∈ name i, c ≠ ' ') (hn : ∀ i, name i ≠ ['@']) {s : Nat} (h : HasPlan pt s) :
    ∃ T d0, IsPlan pt name s T ∧ ∀ d, d0 ≤ d → ∀ r, (r = [] ∨ ∃ r', r = ' ' :: r') → readTerm d (writeTree pt name d s ++ r) = some (T, r) := by
  induction h with
  | relation s hsg =>
    refine ⟨.rel (name (first s)), 1, ?_, fun d hd r hr => ?_⟩
    · have := IsPlan.rel (pt := pt) (name := name) (first s)
      rwa [← singleton_pow hsg] at this
    · obtain ⟨d, rfl⟩ : ∃ e, d = e + 1 := ⟨d - 1, by omega⟩
      simp only [writeTree, hsg, if_true]
      exact read_name (hs _) (hn _) d r hr
  | join s hsg _ _ _ _ ih1 ih2 =>
    obtain ⟨l, dl, hl, rl⟩ := ih1
    obtain ⟨r, dr, hr, rr⟩ := ih2
    refine ⟨.join l r, dl + dr + 1, .join s l r hsg hl hr, fun d hd x hx => ?_⟩
    obtain ⟨d, rfl⟩ : ∃ e, d = e + 1 := ⟨d - 1, by omega⟩
    have e : writeTree pt name (d + 1) s ++ x
        = '@' :: ' ' :: (writeTree pt name d (pt s).1 ++ (' ' :: (writeTree pt name d (pt s).2 ++ x))) := by
      simp [writeTree, hsg]
    rw [e, readTerm, rl d (by omega) _ (Or.inr ⟨_, rfl⟩)]
    simp only
    rw [rr d (by omega) x hx]

theorem tree_clean {pt : PT} {name : Nat → List Char} (hc : ∀ i, Clean (name i)) : ∀ (d s : Nat), Clean (writeTree pt name d s) := by
  intro d
  induction d with
  | zero => intro s c hc; simp [writeTree] at hc
  | succ d ih =>
    intro s c hcs
    simp only [writeTree] at hcs
    split at hcs
    · exact hc _ c hcs
    · simp only [List.mem_append] at hcs
      rcases hcs with ((h | h) | h) | h
      · have h : c = '@' ∨ c = ' ' := by simpa using h
        rcases h with rfl | rfl <;> decide
      · exact ih _ c h
      · have h : c = ' ' := by simpa using h
        subst h; decide
      · exact ih _ c h

end Mutable.PartialPlan
