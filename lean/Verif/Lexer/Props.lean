import Verif.Lexer.Scan
import Mathlib.Data.List.Induction
/-!
# C36: the SQL lexer
-/
namespace Mutable.Lex
open Spec

/-! ### Gaps -/

theorem Gap.append {a b : List Char} (ha : Gap a) (hb : Gap b) : Gap (a ++ b) := by
  induction ha with
  | nil => exact hb
  | space h _ ih => exact .space h ih
  | @comment w g h _ ih =>
    have := Gap.comment h ih
    simpa using this

theorem FinalGap.prepend {a b : List Char} (ha : Gap a) (hb : FinalGap b) : FinalGap (a ++ b) := by
  rcases hb with hb | ⟨g, w, rfl, hg, hw⟩
  · exact Or.inl (Gap.append ha hb)
  · exact Or.inr ⟨a ++ g, w, by simp, Gap.append ha hg, hw⟩

theorem comment_spec : ∀ (f : Nat) (s : Lx), (view s).length ≤ f → Inv s → (∃ x, s.c = some x ∧ x ≠ '\n') →
    Skips s ((view s).takeWhile (· ≠ '\n')) (comment f s) ∧ view (comment f s) = (view s).dropWhile (· ≠ '\n') := by
  intro f
  induction f with
  | zero =>
    rintro s hl hi ⟨x, hx, -⟩
    rw [view_some hx] at hl; exact absurd hl (by simp)
  | succ f ih =>
    rintro s hl hi ⟨x, hx, hn⟩
    obtain ⟨h1, h2⟩ := step_spec hi hx
    have hv := view_some hx
    rw [hv] at hl ⊢
    simp only [List.takeWhile_cons, List.dropWhile_cons, hn, ne_eq, not_false_eq_true, decide_true, if_true]
    unfold comment
    simp only
    split
    · rename_i hc
      cases hcc : s.step.c with
      | none => exact absurd hcc hc.1
      | some y =>
        have hy : y ≠ '\n' := fun e => hc.2 (by rw [hcc, e])
        obtain ⟨g1, g2⟩ := ih s.step (by rw [h2]; simpa using hl) h1.inv ⟨y, hcc, hy⟩
        rw [h2] at g1 g2
        exact ⟨h1.trans g1, g2⟩
    · rename_i hc
      have hh : s.rest = [] ∨ ∃ r, s.rest = '\n' :: r := by
        rw [← h2]
        cases hcc : s.step.c with
        | none => left; exact view_none hcc
        | some y =>
          right
          have hy : y = '\n' := by
            by_contra hne
            exact hc ⟨by simp [hcc], by rw [hcc]; simpa using hne⟩
          exact ⟨_, by rw [view_some hcc, hy]⟩
      rcases hh with hh | ⟨r, hh⟩
      · rw [hh] at h2 ⊢; exact ⟨by simpa using h1, by simpa using h2⟩
      · rw [hh] at h2 ⊢; exact ⟨by simpa using h1, by simpa using h2⟩

theorem skip_none (f : Nat) {s : Lx} (h : s.c = none) : skip f s = s := by
  cases f with
  | zero => rfl
  | succ f => simp [skip, h]

/-- One round of the loop that skips a comment. -/
theorem skip_comment {f : Nat} {s : Lx} {w : List Char} (hi : Inv s) (hv : view s = '-' :: '-' :: w) :
    ∃ s2, skip (f + 1) s = skip f s2 ∧ Skips s ('-' :: '-' :: w.takeWhile (· ≠ '\n')) s2 ∧ view s2 = w.dropWhile (· ≠ '\n') := by
  obtain ⟨hc, hr⟩ := view_cons hv
  obtain ⟨h1, h2⟩ := step_spec hi hc
  rw [hr] at h2
  obtain ⟨hc1, hr1⟩ := view_cons h2
  have hlen : (view s.step).length ≤ s.step.fuel := length_view_le _
  obtain ⟨g1, g2⟩ := comment_spec s.step.fuel s.step hlen h1.inv ⟨'-', hc1, by decide⟩
  rw [h2] at g1 g2
  simp only [List.takeWhile_cons, List.dropWhile_cons, show decide ('-' ≠ '\n') = true from by decide, if_true] at g1 g2
  refine ⟨_, ?_, h1.trans g1, g2⟩
  rw [skip, hc]
  simp only [show isSpace '-' = false from by decide, Bool.false_eq_true, if_false, if_true]
  rw [hc1]
  simp only [if_true]

theorem skip_sound : ∀ (f : Nat) (s : Lx), (view s).length < f → Inv s →
    ∃ g, Skips s g (skip f s) ∧ (Gap g ∨ (FinalGap g ∧ view (skip f s) = [])) ∧ ∀ x ∈ (view (skip f s)).head?, isSpace x = false := by
  intro f
  induction f using Nat.strong_induction_on with
  | _ f ih =>
    intro s hl hi
    cases f with
    | zero => exact absurd hl (by simp)
    | succ f =>
      cases hc : s.c with
      | none =>
        rw [skip_none _ hc]
        exact ⟨[], .refl hi, Or.inl .nil, by simp [view_none hc]⟩
      | some x =>
        have hv := view_some hc
        obtain ⟨h1, h2⟩ := step_spec hi hc
        by_cases hsp : isSpace x = true
        · have hs : skip (f + 1) s = skip f s.step := by simp [skip, hc, hsp]
          rw [hs]
          obtain ⟨g, g1, g2, g3⟩ := ih f (by omega) s.step (by rw [h2]; rw [hv] at hl; simpa using hl) h1.inv
          refine ⟨x :: g, h1.trans g1, ?_, g3⟩
          rcases g2 with g2 | ⟨g2, g2'⟩
          · exact Or.inl (.space ((white_iff _).2 hsp) g2)
          · exact Or.inr ⟨FinalGap.prepend (a := [x]) (.space ((white_iff _).2 hsp) .nil) g2, g2'⟩
        · by_cases hx : x = '-'
          · subst hx
            by_cases hc1 : s.step.c = some '-'
            · obtain ⟨w, hw⟩ : ∃ w, s.rest = '-' :: w := ⟨_, by rw [← h2, view_some hc1]⟩
              rw [hw] at hv
              obtain ⟨s2, e1, e2, e3⟩ := skip_comment (f := f) hi hv
              rw [e1]
              have hlen : (view s2).length + 2 ≤ (view s).length := by
                have := congrArg List.length e2.v
                simp only [List.length_append, List.length_cons] at this
                omega
              have hnl : '\n' ∉ w.takeWhile (· ≠ '\n') := fun h => by
                have := mem_takeWhile _ h
                simp at this
              cases hd : w.dropWhile (· ≠ '\n') with
              | nil =>
                rw [hd] at e3
                rw [skip_none _ (view_nil e3)]
                exact ⟨_, e2, Or.inr ⟨Or.inr ⟨[], _, rfl, .nil, hnl⟩, e3⟩, by simp [e3]⟩
              | cons y r =>
                have hy : y = '\n' := by
                  have := List.head_dropWhile_not (p := (· ≠ '\n')) (l := w) (by rw [hd]; simp)
                  simp only [hd, List.head_cons] at this
                  simpa using this
                subst hy
                rw [hd] at e3
                cases f with
                | zero => omega
                | succ f =>
                  obtain ⟨hc2, hr2⟩ := view_cons e3
                  obtain ⟨k1, k2⟩ := step_spec e2.inv hc2
                  have hs : skip (f + 1) s2 = skip f s2.step := by
                    simp [skip, hc2, show isSpace '\n' = true from by decide]
                  rw [hs]
                  obtain ⟨g, g1, g2, g3⟩ := ih f (by omega) s2.step (by rw [k2, hr2]; rw [e3] at hlen; simp at hlen; omega) k1.inv
                  refine ⟨_, e2.trans (k1.trans g1), ?_, g3⟩
                  have hgc := Gap.comment hnl .nil
                  have e : ∀ g, '-' :: '-' :: w.takeWhile (· ≠ '\n') ++ (['\n'] ++ g) = ('-' :: '-' :: w.takeWhile (· ≠ '\n') ++ ['\n']) ++ g := by
                    intro g; simp
                  rw [e]
                  rcases g2 with g2 | ⟨g2, g2'⟩
                  · exact Or.inl (Gap.append hgc g2)
                  · exact Or.inr ⟨FinalGap.prepend hgc g2, g2'⟩
            · have hs : skip (f + 1) s = s.step.undo '-' := by
                simp [skip, hc, show isSpace '-' = false from by decide, hc1]
              obtain ⟨u1, u2, u3, u4, u5⟩ := undo_spec hi hc (by decide)
              rw [hs]
              exact ⟨[], ⟨u1, by simpa using u2.symm, by simpa [advP] using u3, by simpa using u4⟩, Or.inl .nil, by
                rw [u2, hv]; simp; decide⟩
          · have hs : skip (f + 1) s = s := by simp [skip, hc, hsp, hx]
            rw [hs]
            exact ⟨[], .refl hi, Or.inl .nil, by rw [hv]; simpa using hsp⟩

theorem skip_gap {g : List Char} (hg : Gap g) : ∀ (f : Nat) (s : Lx) (post : List Char), (view s).length < f → Inv s → view s = g ++ post →
    ∃ f' s', skip f s = skip f' s' ∧ Skips s g s' ∧ view s' = post ∧ (view s').length < f' := by
  induction hg with
  | nil => intro f s post hl hi hv; exact ⟨f, s, rfl, .refl hi, hv, hl⟩
  | @space c g hc _ ih =>
    intro f s post hl hi hv
    obtain ⟨hcc, hr⟩ := view_cons hv
    change s.rest = g ++ post at hr
    obtain ⟨h1, h2⟩ := step_spec hi hcc
    cases f with
    | zero => exact absurd hl (by simp)
    | succ f =>
      have hs : skip (f + 1) s = skip f s.step := by simp [skip, hcc, (white_iff _).1 hc]
      obtain ⟨f', s', e1, e2, e3, e4⟩ := ih f s.step post (by rw [h2, hr]; rw [hv] at hl; simpa using hl) h1.inv (by rw [h2, hr])
      exact ⟨f', s', by rw [hs, e1], h1.trans e2, e3, e4⟩
  | @comment w g hw _ ih =>
    intro f s post hl hi hv
    cases f with
    | zero => exact absurd hl (by simp)
    | succ f =>
      have hv' : view s = '-' :: '-' :: (w ++ '\n' :: (g ++ post)) := by simpa using hv
      obtain ⟨s2, e1, e2, e3⟩ := skip_comment (f := f) hi hv'
      have hst := takeWhile_stop (p := (· ≠ '\n')) (a := w) (b := '\n' :: (g ++ post)) (fun c hc => by
        simpa using fun h : c = '\n' => hw (h ▸ hc)) (by simp)
      rw [hst.1] at e2
      rw [hst.2] at e3
      obtain ⟨hc2, hr2⟩ := view_cons e3
      obtain ⟨k1, k2⟩ := step_spec e2.inv hc2
      have hlen : (view s2).length + 2 ≤ (view s).length := by
        have := congrArg List.length e2.v
        simp only [List.length_append, List.length_cons] at this
        omega
      cases f with
      | zero => omega
      | succ f =>
        have hs : skip (f + 1) s2 = skip f s2.step := by
          simp [skip, hc2, show isSpace '\n' = true from by decide]
        obtain ⟨f', s', j1, j2, j3, j4⟩ := ih f s2.step post (by rw [k2, hr2]; rw [e3, List.length_cons] at hlen; omega) k1.inv (by rw [k2, hr2])
        refine ⟨f', s', by rw [e1, hs, j1], ?_, j3, j4⟩
        have := e2.trans (k1.trans j2)
        simpa using this

theorem skip_stop {f : Nat} {s : Lx} (hi : Inv s) {x l} (hv : view s = x :: l) (hx : isSpace x = false)
    (hm : x = '-' → ∀ y ∈ l.head?, y ≠ '-') : Skips s [] (skip f s) := by
  cases f with
  | zero => exact .refl hi
  | succ f =>
    obtain ⟨hc, hr⟩ := view_cons hv
    obtain ⟨h1, h2⟩ := step_spec hi hc
    by_cases hd : x = '-'
    · subst hd
      have hc1 : s.step.c ≠ some '-' := by
        rw [c_eq, h2, hr]
        intro h
        exact hm rfl '-' h rfl
      have hs : skip (f + 1) s = s.step.undo '-' := by
        simp [skip, hc, show isSpace '-' = false from by decide, hc1]
      obtain ⟨u1, u2, u3, u4, u5⟩ := undo_spec hi hc (by decide)
      rw [hs]
      exact ⟨u1, by simpa using u2.symm, by simpa [advP] using u3, by simpa using u4⟩
    · have hs : skip (f + 1) s = s := by simp [skip, hc, hx, hd]
      rw [hs]; exact .refl hi

theorem skip_final {f : Nat} {s : Lx} (hl : (view s).length < f) (hi : Inv s) (h : FinalGap (view s)) : view (skip f s) = [] := by
  rcases h with h | ⟨g, w, e, hg, hw⟩
  · obtain ⟨f', s', e1, -, e3, -⟩ := skip_gap h f s [] hl hi (by simp)
    rw [e1, skip_none _ (view_nil e3), e3]
  · obtain ⟨f', s', e1, e2, e3, e4⟩ := skip_gap hg f s _ hl hi e
    rw [e1]
    cases f' with
    | zero => exact absurd e4 (by simp)
    | succ f' =>
      obtain ⟨s2, j1, -, j3⟩ := skip_comment (f := f') e2.inv e3
      have hst := takeWhile_stop (p := (· ≠ '\n')) (a := w) (b := []) (fun c hc => by
        simpa using fun h : c = '\n' => hw (h ▸ hc)) (by simp)
      rw [List.append_nil] at hst
      rw [hst.2] at j3
      rw [j1, skip_none _ (view_nil j3), j3]

/-! ### `next` -/

theorem fuel_lt (s : Lx) : (view s).length < s.fuel := by
  unfold view Lx.fuel; split <;> simp

theorem getLast_suffix {a b : List Char} (hb : b ≠ []) (h : (a ++ b).getLast? ≠ some '\\') : b.getLast? ≠ some '\\' := by
  rwa [List.getLast?_append_of_ne_nil _ hb] at h

/-- Either the end of the input, or a gap and the token that `scan` finds behind it. -/
theorem next_sound {s : Lx} (hi : Inv s) (hn : Char.ofNat 0 ∉ view s) (hlast : (view s).getLast? ≠ some '\\') :
    (∃ g, FinalGap g ∧ view s = g ∧ (next s).1 = ⟨advP s.pos g, ['E', 'O', 'F'], .eof⟩) ∨
    (∃ g x l, Gap g ∧ isSpace x = false ∧ view s = g ++ (x :: l) ∧ (next s).1 = ⟨advP s.pos g, (scan x l).1, (scan x l).2⟩ ∧
      Inv (next s).2 ∧ x :: l = (scan x l).1 ++ view (next s).2 ∧ (next s).2.pos = advP s.pos (g ++ (scan x l).1)) := by
  obtain ⟨g, h1, h2, h3⟩ := skip_sound s.fuel s (fuel_lt s) hi
  cases hc : (skip s.fuel s).c with
  | none =>
    have hnext : next s = (⟨(skip s.fuel s).pos, ['E', 'O', 'F'], .eof⟩, skip s.fuel s) := by
      unfold next; simp only; generalize skip s.fuel s = s' at hc; rw [hc]
    rw [hnext]
    left
    have hv := view_none hc
    refine ⟨g, ?_, by rw [h1.v, hv]; simp, by simp only [h1.pos]⟩
    rcases h2 with h2 | h2
    · exact Or.inl h2
    · exact h2.1
  | some x =>
    have hnext : next s = dispatch (skip s.fuel s).pos { skip s.fuel s with buf := [] } x := by
      unfold next; simp only; generalize skip s.fuel s = s' at hc; cases s'; simp only at hc; subst hc; rfl
    rw [hnext]
    right
    have hv := view_some hc
    have hg : Gap g := by
      rcases h2 with h2 | ⟨-, h2⟩
      · exact h2
      · rw [hv] at h2; exact absurd h2 (by simp)
    have hvv := h1.v
    rw [hv] at hvv
    have hR := dispatch_spec (p := (skip s.fuel s).pos) (s := { skip s.fuel s with buf := [] }) (x := x) (l := (skip s.fuel s).rest)
      ⟨h1.inv.fr, h1.inv.cn⟩ rfl (by
        have : view { skip s.fuel s with buf := [] } = x :: (skip s.fuel s).rest := hv
        rw [this]; intro hm; exact hn (by rw [hvv]; simp only [List.mem_append]; exact Or.inr hm)) hv (by
        have : view { skip s.fuel s with buf := [] } = x :: (skip s.fuel s).rest := hv
        rw [this]; rw [hvv] at hlast; exact getLast_suffix (by simp) hlast)
    refine ⟨g, x, _, hg, h3 x (by rw [hv]; simp), hvv, ?_, hR.inv, ?_, ?_⟩
    · rw [hR.tok, ← h1.pos]
    · have := hR.v
      rw [show view { skip s.fuel s with buf := [] } = x :: (skip s.fuel s).rest from hv] at this
      exact this
    · rw [hR.pos]; simp only [h1.pos]; rw [← advP_append]

theorem valid_head {ty : TT} {w : List Char} (h : Valid ty w) : ∃ x r, w = x :: r ∧ isSpace x = false ∧ (x = '-' → r = [] ∧ ty = .minus) := by
  have hdec : ∀ {x : Char}, isDec x = true → isSpace x = false ∧ x ≠ '-' := by
    intro x hx
    refine ⟨?_, isDec_ne hx (by decide)⟩
    have : ∀ c, isDec c = false → x ≠ c := fun c hc => isDec_ne hx hc
    simp [isSpace, this ' ' (by decide), this '\t' (by decide), this (Char.ofNat 11) (by decide), this (Char.ofNat 12) (by decide), this '\n' (by decide), this '\r' (by decide)]
  have hid : ∀ {x : Char}, idChar x = true → isSpace x = false ∧ x ≠ '-' := by
    intro x hx
    have : ∀ c, idChar c = false → x ≠ c := by rintro c hc rfl; rw [hx] at hc; exact absurd hc (by simp)
    refine ⟨?_, this '-' (by decide)⟩
    simp [isSpace, this ' ' (by decide), this '\t' (by decide), this (Char.ofNat 11) (by decide), this (Char.ofNat 12) (by decide), this '\n' (by decide), this '\r' (by decide)]
  have key : ∀ {x : Char} {r : List Char}, isSpace x = false ∧ x ≠ '-' → ∃ x' r', x :: r = x' :: r' ∧ isSpace x' = false ∧ (x' = '-' → r' = [] ∧ ty = .minus) :=
    fun h => ⟨_, _, rfl, h.1, fun e => absurd e h.2⟩
  cases h with
  | identifier h => exact key (hid (alpha_idChar h))
  | kw h =>
    rw [reserved_iff] at h
    obtain ⟨hne, ha⟩ := keywords_alpha w h
    cases w with
    | nil => exact absurd rfl hne
    | cons x r => exact key (hid (alpha_idChar (Or.inr (ha x (by simp)))))
  | octInt => exact key (by decide)
  | decInt h => exact key (hdec h)
  | hexInt => exact key (by decide)
  | hexFloat => exact key (by decide)
  | @decFloat I F X hI hF hX h1 h2 =>
    cases I with
    | cons c I => exact key (hdec (hI c (by simp)))
    | nil =>
      rcases h1 with h1 | h1
      · exact absurd rfl h1
      · rcases hF with rfl | ⟨D, rfl, hD⟩
        · exact absurd h1 (by simp)
        · exact key (by decide)
  | minus => exact ⟨'-', [], rfl, by decide, fun _ => ⟨rfl, rfl⟩⟩
  | _ => exact key (by decide)

theorem next_complete {s : Lx} (hi : Inv s) (hn : Char.ofNat 0 ∉ view s) (hlast : (view s).getLast? ≠ some '\\')
    {g w l : List Char} {ty : TT} (hg : Gap g) (hw : Valid ty w) (hng : NoGlue ty w l) (hv : view s = g ++ w ++ l) :
    (next s).1.text = w ∧ (next s).1.type = ty ∧ Inv (next s).2 ∧ view (next s).2 = l := by
  obtain ⟨x, r, rfl, hx, hm⟩ := valid_head hw
  obtain ⟨f', s', e1, e2, e3, -⟩ := skip_gap hg s.fuel s (x :: r ++ l) (fuel_lt s) hi (by rw [hv]; simp)
  have hst : Skips s' [] (skip f' s') := skip_stop e2.inv (l := r ++ l) e3 hx (by
    intro e y hy
    obtain ⟨rfl, rfl⟩ := hm e
    subst e
    exact hng y hy)
  rw [← e1] at hst
  have hv2 : view (skip s.fuel s) = x :: (r ++ l) := by
    have := hst.v
    rw [e3] at this
    simpa using this.symm
  obtain ⟨hc, hr⟩ := view_cons hv2
  have hnext : next s = dispatch (skip s.fuel s).pos { skip s.fuel s with buf := [] } x := by
    unfold next; simp only; generalize skip s.fuel s = s' at hc; cases s'; simp only at hc; subst hc; rfl
  rw [hnext]
  have hvv : view s = g ++ (x :: (r ++ l)) := by rw [hv]; simp
  have hR := dispatch_spec (p := (skip s.fuel s).pos) (s := { skip s.fuel s with buf := [] }) (x := x) (l := r ++ l)
    ⟨hst.inv.fr, hst.inv.cn⟩ rfl (by
      have : view { skip s.fuel s with buf := [] } = x :: (r ++ l) := hv2
      rw [this]; intro hm; exact hn (by rw [hvv]; simp only [List.mem_append]; exact Or.inr (by simpa using hm))) hv2 (by
      have : view { skip s.fuel s with buf := [] } = x :: (r ++ l) := hv2
      rw [this]; rw [hvv] at hlast; exact getLast_suffix (by simp) hlast)
  rw [scan_complete hw hng] at hR
  refine ⟨by rw [hR.tok], by rw [hR.tok], hR.inv, ?_⟩
  have := hR.v
  rw [show view { skip s.fuel s with buf := [] } = x :: (r ++ l) from hv2] at this
  simp only [List.cons_append, List.cons.injEq, true_and, List.append_cancel_left_eq] at this
  exact this.symm

/-! ### The whole input -/

/-- Positions: the text before the input is a newline at line 0. -/
theorem advP_posOf (pre : List Char) : advP ⟨0, 0⟩ ('\n' :: pre) = posOf pre := by
  induction pre using List.reverseRecOn with
  | nil => rfl
  | append_singleton l c ih =>
    rw [← List.cons_append, advP_append, ih]
    simp only [advP, List.foldl_cons, List.foldl_nil, bump, posOf, List.count_append, List.reverse_append, List.reverse_cons, List.reverse_nil, List.nil_append, List.cons_append]
    by_cases hc : c = '\n'
    · subst hc; simp [Nat.add_assoc]
    · have : ('\n' == c) = false := by simpa using fun h => hc h.symm
      simp [hc, List.takeWhile_cons, List.count_cons, Nat.add_assoc, Nat.add_comm]

/-- Like `Tiled`, with the texts and types found by `scan`. -/
inductive TiledP : List Char → List Char → List Token → Prop
  | eof {pre l} : FinalGap l → TiledP pre l [⟨advP ⟨0, 0⟩ (pre ++ l), ['E', 'O', 'F'], .eof⟩]
  | token {pre g x l r ts} : Gap g → isSpace x = false → x :: l = (scan x l).1 ++ r → TiledP (pre ++ g ++ (scan x l).1) r ts →
      TiledP pre (g ++ x :: l) (⟨advP ⟨0, 0⟩ (pre ++ g), (scan x l).1, (scan x l).2⟩ :: ts)

theorem tokens_sound : ∀ (n : Nat) (s : Lx) (pre : List Char), Inv s → Char.ofNat 0 ∉ view s → (view s).getLast? ≠ some '\\' →
    s.pos = advP ⟨0, 0⟩ pre → ((view s).length < n ∨ ((view s).length ≤ n ∧ ∃ l, view s = '\n' :: l)) → TiledP pre (view s) (tokens n s) := by
  intro n
  induction n with
  | zero =>
    intro s pre hi hn hlast hp hl
    rcases hl with hl | ⟨hl, l, e⟩
    · exact absurd hl (by simp)
    · rw [e] at hl; exact absurd hl (by simp)
  | succ n ih =>
    intro s pre hi hn hlast hp hl
    unfold tokens
    simp only
    rcases next_sound hi hn hlast with ⟨g, h1, h2, h3⟩ | ⟨g, x, l, h1, h2, h3, h4, h5, h6, h7⟩
    · rw [h3, h2]
      simp only [if_true]
      rw [hp, ← advP_append]
      exact .eof h1
    · obtain ⟨k1, k2⟩ := scan_ne x l
      rw [h4]
      simp only [k2, if_false]
      rw [h3, hp, ← advP_append]
      refine .token h1 h2 h6 ?_
      have hlen := congrArg List.length h3
      have hlen6 := congrArg List.length h6
      have hpos : 0 < (scan x l).1.length := List.length_pos_iff.2 k1
      simp only [List.length_append, List.length_cons] at hlen hlen6
      apply ih
      · exact h5
      · intro hm
        apply hn
        rw [h3, h6]
        simp only [List.mem_append]
        exact Or.inr (Or.inr hm)
      · intro hh
        by_cases he : view (next s).2 = []
        · rw [he] at hh; exact absurd hh (by simp)
        · rw [h3, h6, ← List.append_assoc] at hlast
          exact getLast_suffix he hlast hh
      · rw [h7, hp, ← advP_append, List.append_assoc]
      · left
        rcases hl with hl | ⟨hl, l', e⟩
        · omega
        · have : g ≠ [] := by
            rintro rfl
            rw [e] at h3
            simp only [List.nil_append, List.cons.injEq] at h3
            rw [← h3.1] at h2
            exact absurd h2 (by decide)
          have : 0 < g.length := List.length_pos_iff.2 this
          omega

theorem gap_tail {c : Char} {g : List Char} (hc : isSpace c = true) (h : Gap (c :: g)) : Gap g := by
  generalize hl : c :: g = l at h
  cases h with
  | nil => exact absurd hl (by simp)
  | space _ h => cases hl; exact h
  | comment => cases hl; exact absurd hc (by decide)

theorem finalGap_tail {c : Char} {g : List Char} (hc : isSpace c = true) (h : FinalGap (c :: g)) : FinalGap g := by
  rcases h with h | ⟨g', w, e, h1, h2⟩
  · exact Or.inl (gap_tail hc h)
  · cases g' with
    | nil => simp only [List.nil_append, List.cons.injEq] at e; rw [e.1] at hc; exact absurd hc (by decide)
    | cons d g' =>
      simp only [List.cons_append, List.cons.injEq] at e
      obtain ⟨rfl, rfl⟩ := e
      exact Or.inr ⟨g', w, rfl, gap_tail hc h1, h2⟩

theorem tiled_later {pre l : List Char} {ts} (h : TiledP ('\n' :: pre) l ts) : Tiled pre l ts := by
  generalize hp : '\n' :: pre = p at h
  induction h generalizing pre with
  | eof h => subst hp; rw [List.cons_append, advP_posOf]; exact .eof h
  | @token p g x l r ts h1 h2 h3 _ ih =>
    subst hp
    rw [List.cons_append, advP_posOf, h3, ← List.append_assoc]
    exact .token h1 (scan_ne x l).1 (scan_ne x l).2 (ih (by simp))

theorem tiled_first {l : List Char} {ts} (h : TiledP [] ('\n' :: l) ts) : Tiled [] l ts := by
  generalize hp : ([] : List Char) = p at h
  generalize hl : '\n' :: l = l' at h
  cases h with
  | eof h => subst hp; subst hl; rw [List.nil_append, advP_posOf]; exact .eof (finalGap_tail (by decide) h)
  | @token _ g x m r ts h1 h2 h3 h4 =>
    subst hp
    cases g with
    | nil => simp only [List.nil_append, List.cons.injEq] at hl; rw [← hl.1] at h2; exact absurd h2 (by decide)
    | cons c g =>
      simp only [List.cons_append, List.cons.injEq] at hl
      obtain ⟨rfl, rfl⟩ := hl
      rw [List.nil_append, advP_posOf, h3, ← List.append_assoc]
      exact .token (gap_tail (by decide) h1) (scan_ne x m).1 (scan_ne x m).2 (by
        have := tiled_later (pre := g ++ (scan x m).1) (by simpa using h4)
        simpa using this)

theorem lex_tiledP (input : List Char) (h0 : Char.ofNat 0 ∉ input) (hb : input.getLast? ≠ some '\\') : TiledP [] ('\n' :: input) (lex input) := by
  have hv : view (Lx.init input) = '\n' :: input := rfl
  rw [← hv]
  unfold lex
  apply tokens_sound
  · exact ⟨fun h => by simp [Lx.init] at h, fun h => by simp [Lx.init] at h⟩
  · rw [hv]; intro h
    rcases List.mem_cons.1 h with h | h
    · exact absurd h (by decide)
    · exact h0 h
  · rw [hv]
    cases input with
    | nil => decide
    | cons x l => rw [List.getLast?_cons_cons]; exact hb
  · rfl
  · right; rw [hv]; exact ⟨by simp, input, rfl⟩

/-! ### C36 -/

/-- Lexing loses no character: the input is the concatenation of the texts of the tokens, separated by white space and
comments only; each token carries the line and column at which its text begins; and the last token is the end of input,
so that lexing terminates.  The input has no NUL (see `C36_nul_truncates`) and does not end with a backslash (see
`C36_backslash_at_end`). -/
theorem C36_lossless (input : List Char) (h0 : Char.ofNat 0 ∉ input) (hb : input.getLast? ≠ some '\\') :
    Tiled [] input (lex input) := tiled_first (lex_tiledP input h0 hb)

/-- Every token that is not an error has a text that is valid for its type, with two exceptions: dates
(`C36_dates_unchecked`) and hexadecimal floats without digits (`C36_hex_float_without_digits`). -/
theorem C36_sound_partial (input : List Char) (h0 : Char.ofNat 0 ∉ input) (hb : input.getLast? ≠ some '\\') :
    ∀ t ∈ lex input, t.type ≠ .error → t.type ≠ .eof → t.type ≠ .date → t.type ≠ .dateTime →
      Valid t.type t.text ∨ (t.type = .hexFloat ∧ ∃ x X, (x = 'x' ∨ x = 'X') ∧ Exponent 'p' 'P' X ∧ X ≠ [] ∧
        (t.text = '0' :: x :: X ∨ t.text = '0' :: x :: '.' :: X)) := by
  have aux : ∀ {p l ts}, TiledP p l ts → ∀ t ∈ ts, t.type ≠ .error → t.type ≠ .eof → t.type ≠ .date → t.type ≠ .dateTime →
      NumOK t.type t.text := by
    intro p l ts h
    induction h with
    | eof _ =>
      intro t ht _ h2
      simp only [List.mem_singleton] at ht
      subst ht
      exact absurd rfl h2
    | @token _ _ x l _ _ _ _ _ _ ih =>
      intro t ht h1 h2 h3 h4
      rcases List.mem_cons.1 ht with rfl | ht
      · exact scan_sound x l h1 h3 h4
      · exact ih t ht h1 h2 h3 h4
  intro t ht h1 h2 h3 h4
  have := aux (lex_tiledP input h0 hb) t ht h1 h2 h3 h4
  revert this
  generalize t.type = ty
  generalize t.text = w
  intro this
  cases this with
  | valid h => exact Or.inl h
  | hexExp h1 h2 h3 => exact Or.inr ⟨rfl, _, _, h1, h2, h3, Or.inl rfl⟩
  | hexDotExp h1 h2 h3 => exact Or.inr ⟨rfl, _, _, h1, h2, h3, Or.inr rfl⟩

/-- A source text that is composed of valid tokens, gaps between them, and nothing between two tokens only where the
longer match is not possible. -/
inductive Source : List (List Char × TT) → List Char → Prop
  | eof {l} : FinalGap l → Source [] l
  | token {g w ty l ts} : Gap g → Valid ty w → NoGlue ty w l → Source ts l → Source ((w, ty) :: ts) (g ++ w ++ l)

theorem tokens_complete {ts l} (h : Source ts l) : ∀ (n : Nat) (s : Lx), Inv s → Char.ofNat 0 ∉ view s → (view s).getLast? ≠ some '\\' →
    view s = l → ts.length < n → (tokens n s).map (fun t => (t.text, t.type)) = ts ++ [(['E', 'O', 'F'], .eof)] := by
  induction h with
  | @eof l h =>
    intro n s hi hn hlast hv hlen
    cases n with
    | zero => exact absurd hlen (by simp)
    | succ n =>
      have hf := skip_final (fuel_lt s) hi (hv ▸ h)
      have hc := view_nil hf
      have hnext : next s = (⟨(skip s.fuel s).pos, ['E', 'O', 'F'], .eof⟩, skip s.fuel s) := by
        unfold next; simp only; generalize skip s.fuel s = s' at hc; rw [hc]
      simp [tokens, hnext]
  | @token g w ty l ts hg hw hng _ ih =>
    intro n s hi hn hlast hv hlen
    cases n with
    | zero => exact absurd hlen (by simp)
    | succ n =>
      obtain ⟨h1, h2, h3, h4⟩ := next_complete hi hn hlast hg hw hng hv
      have hne : ty ≠ .eof := by cases hw <;> simp
      unfold tokens
      simp only
      rw [h2]
      simp only [hne, if_false, List.map_cons, List.cons_append, h1, h2]
      rw [ih n (next s).2 h3 ?_ ?_ h4 (by simpa using hlen)]
      · rw [h4]; intro hm; exact hn (by rw [hv]; simp only [List.mem_append]; exact Or.inr hm)
      · rw [h4]
        intro hh
        by_cases he : l = []
        · rw [he] at hh; exact absurd hh (by simp)
        · rw [hv] at hlast
          exact getLast_suffix he hlast hh

/-- Conversely, lexing any text composed of valid tokens and gaps finds exactly these tokens. -/
theorem C36_round_trip {ts : List (List Char × TT)} {input : List Char} (h : Source ts input) (h0 : Char.ofNat 0 ∉ input)
    (hb : input.getLast? ≠ some '\\') :
    (lex input).map (fun t => (t.text, t.type)) = ts ++ [(['E', 'O', 'F'], .eof)] := by
  have hlen : ∀ {ts l}, Source ts l → ts.length ≤ l.length := by
    intro ts l h
    induction h with
    | eof _ => simp
    | token _ hw _ _ ih =>
      obtain ⟨x, r, rfl, -⟩ := valid_head hw
      simp only [List.length_cons, List.length_append]
      omega
  have hnl : Source ts ('\n' :: input) := by
    cases h with
    | eof h => exact .eof (FinalGap.prepend (a := ['\n']) (.space ((white_iff _).2 (by decide)) .nil) h)
    | @token g w ty l ts hg hw hng hs => exact .token (g := '\n' :: g) (.space ((white_iff _).2 (by decide)) hg) hw hng hs
  unfold lex
  apply tokens_complete hnl
  · exact ⟨fun h => by simp [Lx.init] at h, fun h => by simp [Lx.init] at h⟩
  · intro h
    rcases List.mem_cons.1 h with h | h
    · exact absurd h (by decide)
    · exact h0 h
  · change ('\n' :: input).getLast? ≠ _
    cases input with
    | nil => decide
    | cons x l => rw [List.getLast?_cons_cons]; exact hb
  · rfl
  · exact Nat.lt_succ_of_le (hlen h)

/-! ### Counterexamples to the full statements -/

/-- `invalid &= accept(…)` forgets errors: `d'20201010'`, without separators, is a date; so is `d'1-2310'`. -/
theorem C36_dates_unchecked :
    (∃ t ∈ lex "d'20201010'".toList, t.type = .date ∧ t.text = "d'20201010'".toList ∧ ¬ Valid t.type t.text) ∧
    (∃ t ∈ lex "d'1-2310'".toList, t.type = .date ∧ t.text = "d'1-2310'".toList ∧ ¬ Valid t.type t.text) := by
  have key : ∀ (w : List Char), w.length < 10 → ¬ Valid .date ('d' :: '\'' :: w ++ ['\'']) := by
    intro w hw hv
    generalize he : 'd' :: '\'' :: w ++ ['\''] = v at hv
    cases hv with
    | date h =>
      have := congrArg List.length he
      obtain ⟨sgn, y, m, d, rfl, -, h1, h2, h3⟩ := h
      simp only [List.length_append, List.length_cons, List.length_nil, h1.1, h2.1, h3.1] at this
      omega
  refine ⟨⟨⟨⟨1, 1⟩, "d'20201010'".toList, .date⟩, by decide +kernel, rfl, rfl, key "20201010".toList (by decide)⟩,
    ⟨⟨⟨1, 1⟩, "d'1-2310'".toList, .date⟩, by decide +kernel, rfl, rfl, key "1-2310".toList (by decide)⟩⟩

/-- `0xp5` is a hexadecimal float. -/
theorem C36_hex_float_without_digits : (lex "0xp5".toList).map (fun t => (t.text, t.type)) =
    [("0xp5".toList, .hexFloat), ("EOF".toList, .eof)] := by decide +kernel

/-- A NUL inside of a string literal truncates the text of the token, so that the literal loses its end. -/
theorem C36_nul_truncates : (lex ['"', 'a', Char.ofNat 0, 'b', '"']).map (fun t => (t.text, t.type)) =
    [(['"', 'a'], .stringLiteral), ("EOF".toList, .eof)] := by decide +kernel

/-- In a string literal that is not terminated and ends with a backslash, the end of the input becomes a character. -/
theorem C36_backslash_at_end : (lex ['"', '\\']).map (fun t => (t.text, t.type)) =
    [(['"', '\\', Char.ofNat 255], .error), ("EOF".toList, .eof)] := by decide +kernel

/-! ### Witness -/

/-- `SELECT a -- b<newline>.5 <= 0x1F` -/
example : Source [("SELECT".toList, .kw "SELECT".toList), (['a'], .identifier), (['.', '5'], .decFloat), (['<', '='], .lessEqual), ("0x1F".toList, .hexInt)]
    ("SELECT a -- b".toList ++ '\n' :: ".5<= 0x1F".toList) := by
  have hs : isSpace ' ' = true := by decide
  refine .token (g := []) (l := " a -- b".toList ++ '\n' :: ".5<= 0x1F".toList) .nil (.kw (by decide +kernel)) (by intro x hx; simp at hx; subst hx; decide) ?_
  refine .token (g := [' ']) (w := ['a']) (l := " -- b".toList ++ '\n' :: ".5<= 0x1F".toList) (.space ((white_iff _).2 hs) .nil) (.identifier (Or.inr (by decide)) (by simp) (by decide +kernel)) (by intro x hx; simp at hx; subst hx; decide) ?_
  refine .token (g := " -- b".toList ++ ['\n']) (w := ['.', '5']) (l := "<= 0x1F".toList) (.space ((white_iff _).2 hs) (.comment (w := " b".toList) (by decide) .nil))
    (.decFloat (I := []) (F := ['.', '5']) (X := []) (by simp) (Or.inr ⟨['5'], rfl, by decide⟩) (Or.inl rfl) (Or.inr (by decide)) (Or.inl (by simp))) (by intro x hx; simp at hx; subst hx; decide) ?_
  refine .token (g := []) (w := ['<', '=']) (l := " 0x1F".toList) .nil .lessEqual (by intro x _; trivial) ?_
  exact .token (g := [' ']) (w := "0x1F".toList) (l := []) (.space ((white_iff _).2 hs) .nil) (.hexInt (D := ['1', 'F']) (Or.inl rfl) (by simp) (by decide)) (by intro x hx; simp at hx) (.eof (Or.inl .nil))

/-- The same source has no NUL and does not end with a backslash. -/
example : let input := "SELECT a -- b".toList ++ '\n' :: ".5<= 0x1F".toList
    Char.ofNat 0 ∉ input ∧ input.getLast? ≠ some '\\' := by decide +kernel

end Mutable.Lex
