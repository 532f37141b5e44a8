import Verif.Lexer.Model
import Mathlib.Data.List.Basic
import Mathlib.Data.List.TakeWhile
/-! The lexer as functions on lists of characters, and proof that the model computes them. -/
namespace Mutable.Lex

/-- The characters still to be read, including `c_`. -/
def view (s : Lx) : List Char :=
  match s.c with
  | none => []
  | some x => x :: s.rest

structure Inv (s : Lx) : Prop where
  fr : s.failed = true → s.rest = []
  cn : s.c = none → s.failed = true

def advP (p : Pos) (w : List Char) : Pos := w.foldl (fun p c => bump p (some c)) p

theorem advP_append (p : Pos) (a b : List Char) : advP p (a ++ b) = advP (advP p a) b := by simp [advP]

/-- From `s` to `s'` the characters `w` were consumed and put into the buffer. -/
structure Eats (s : Lx) (w : List Char) (s' : Lx) : Prop where
  inv : Inv s'
  v : view s = w ++ view s'
  pos : s'.pos = advP s.pos w
  buf : s'.buf = s.buf ++ w

/-- From `s` to `s'` the characters `w` were skipped. -/
structure Skips (s : Lx) (w : List Char) (s' : Lx) : Prop where
  inv : Inv s'
  v : view s = w ++ view s'
  pos : s'.pos = advP s.pos w
  buf : s'.buf = s.buf

theorem Eats.refl {s : Lx} (h : Inv s) : Eats s [] s := ⟨h, by simp, by simp [advP], by simp⟩
theorem Skips.refl {s : Lx} (h : Inv s) : Skips s [] s := ⟨h, by simp, by simp [advP], by simp⟩

theorem Eats.trans {s s' s'' : Lx} {a b} (h : Eats s a s') (g : Eats s' b s'') : Eats s (a ++ b) s'' :=
  ⟨g.inv, by rw [h.v, g.v, List.append_assoc], by rw [g.pos, h.pos, advP_append], by rw [g.buf, h.buf, List.append_assoc]⟩

theorem Skips.trans {s s' s'' : Lx} {a b} (h : Skips s a s') (g : Skips s' b s'') : Skips s (a ++ b) s'' :=
  ⟨g.inv, by rw [h.v, g.v, List.append_assoc], by rw [g.pos, h.pos, advP_append], by rw [g.buf, h.buf]⟩

theorem view_none {s : Lx} (h : s.c = none) : view s = [] := by simp [view, h]
theorem view_some {s : Lx} {x} (h : s.c = some x) : view s = x :: s.rest := by simp [view, h]
theorem view_nil {s : Lx} (h : view s = []) : s.c = none := by
  cases hc : s.c <;> simp [view, hc] at h ⊢
theorem view_cons {s : Lx} {x l} (h : view s = x :: l) : s.c = some x ∧ s.rest = l := by
  cases hc : s.c <;> simp [view, hc] at h ⊢; exact h
theorem c_eq (s : Lx) : s.c = (view s).head? := by
  cases hc : s.c <;> simp [view, hc]

theorem is_head (p : Char → Bool) (s : Lx) : is p s.c = (view s).head?.elim false p := by rw [← c_eq]; rfl

theorem step_spec {s : Lx} (hi : Inv s) {x} (hc : s.c = some x) : Skips s [x] s.step ∧ view s.step = s.rest := by
  have hv := view_some hc
  unfold Lx.step
  by_cases hf : s.failed = true
  · have hr := hi.fr hf
    rw [if_pos hf]
    refine ⟨⟨⟨fun _ => hr, fun _ => hf⟩, ?_, ?_, rfl⟩, ?_⟩
    · rw [hv, hr]; simp [view]
    · simp [advP, hc]
    · simp [view, hr]
  · rw [if_neg hf]
    cases hr : s.rest with
    | nil =>
      refine ⟨⟨⟨fun _ => rfl, fun _ => rfl⟩, ?_, ?_, rfl⟩, ?_⟩
      · rw [hv, hr]; simp [view]
      · simp [advP, hc]
      · simp [view]
    | cons y r =>
      refine ⟨⟨⟨fun h => absurd h hf, fun h => by simp at h⟩, ?_, ?_, rfl⟩, ?_⟩
      · rw [hv, hr]; simp [view]
      · simp [advP, hc]
      · simp [view]

/-- `step` followed by `UNDO` is the identity as far as can be observed. -/
theorem undo_spec {s : Lx} (hi : Inv s) {x} (hc : s.c = some x) (hx : x ≠ '\n') :
    Inv (s.step.undo x) ∧ view (s.step.undo x) = view s ∧ (s.step.undo x).pos = s.pos ∧ (s.step.undo x).buf = s.buf ∧
      (s.step.undo x).c = some x := by
  have hb : bump s.pos (some x) = ⟨s.pos.line, s.pos.col + 1⟩ := by simp [bump, hx]
  have hv := view_some hc
  unfold Lx.step
  by_cases hf : s.failed = true
  · have hr := hi.fr hf
    rw [if_pos hf]
    simp only [Lx.undo, hc, hf, if_true, hb]
    exact ⟨⟨fun _ => hr, fun h => by simp at h⟩, by simp [view, hr, hc], by simp, by simp, by simp⟩
  · rw [if_neg hf]
    cases hr : s.rest with
    | nil =>
      simp only [Lx.undo, hc, if_true, hb, hr]
      exact ⟨⟨fun _ => by simp [hr], fun h => by simp at h⟩, by simp [view, hr, hc], by simp, by simp, by simp⟩
    | cons y r =>
      simp only [Lx.undo, hc, hf, hb]
      exact ⟨⟨fun h => absurd h (by simp), fun h => by simp at h⟩, by simp [view, hr, hc], by simp, by simp, by simp⟩

theorem push_spec {s : Lx} (hi : Inv s) {x} (hc : s.c = some x) : Eats s [x] s.push ∧ view s.push = s.rest := by
  have h := step_spec (s := { s with buf := s.buf ++ [x] }) ⟨hi.fr, hi.cn⟩ hc
  have he : s.push = Lx.step { s with buf := s.buf ++ [x] } := by simp [Lx.push, hc]
  rw [he]
  exact ⟨⟨h.1.inv, h.1.v, h.1.pos, h.1.buf⟩, h.2⟩

theorem push_view {s : Lx} (hi : Inv s) {x l} (hv : view s = x :: l) : Eats s [x] s.push ∧ view s.push = l := by
  obtain ⟨hc, hr⟩ := view_cons hv
  have := push_spec hi hc
  rw [hr] at this
  exact this

theorem length_view_le (s : Lx) : (view s).length ≤ s.fuel := by
  unfold view Lx.fuel; split <;> simp

theorem pushWhile_spec (p : Char → Bool) : ∀ (f : Nat) (s : Lx), (view s).length ≤ f → Inv s →
    Eats s ((view s).takeWhile p) (pushWhile p f s) ∧ view (pushWhile p f s) = (view s).dropWhile p := by
  intro f
  induction f with
  | zero =>
    intro s hf hi
    have hv : view s = [] := List.length_eq_zero_iff.1 (by omega)
    simp only [pushWhile, hv, List.takeWhile_nil, List.dropWhile_nil]
    exact ⟨Eats.refl hi, trivial⟩
  | succ f ih =>
    intro s hf hi
    cases hv : view s with
    | nil =>
      have : is p s.c = false := by rw [is_head, hv]; rfl
      simp only [pushWhile, this]
      exact ⟨Eats.refl hi, hv⟩
    | cons x l =>
      obtain ⟨he, hl⟩ := push_view hi hv
      by_cases hp : p x = true
      · have : is p s.c = true := by rw [is_head, hv]; exact hp
        simp only [pushWhile, this, if_true, List.takeWhile_cons, List.dropWhile_cons, hp]
        obtain ⟨a, b⟩ := ih s.push (by rw [hl]; simp [hv] at hf; omega) he.inv
        rw [hl] at a b
        exact ⟨he.trans a, b⟩
      · have : is p s.c = false := by rw [is_head, hv]; simpa using hp
        simp only [pushWhile, this, List.takeWhile_cons, List.dropWhile_cons, hp]
        exact ⟨Eats.refl hi, hv⟩

theorem pushWhile_fuel (p : Char → Bool) {s : Lx} (hi : Inv s) :
    Eats s ((view s).takeWhile p) (pushWhile p s.fuel s) ∧ view (pushWhile p s.fuel s) = (view s).dropWhile p :=
  pushWhile_spec p _ s (length_view_le s) hi

/-! ### Numbers -/

structure NumA where
  is : Base
  has : Base
  isFloat : Bool
  empty : Bool
  txt : List Char
  l : List Char

def zeroA (l : List Char) : NumA :=
  match l with
  | '0' :: r => ⟨.oct, .oct, false, false, ['0'], r⟩
  | l => ⟨.dec, .dec, false, true, [], l⟩

def prefixA (l : List Char) : NumA :=
  match (zeroA l).l with
  | c :: r => if c = 'x' ∨ c = 'X' then ⟨.hex, .hex, false, true, (zeroA l).txt ++ [c], r⟩ else zeroA l
  | [] => zeroA l

def digitOf (b : Base) : Char → Bool := if b = .hex then isHex else isDec

def digitsA (n : NumA) : NumA :=
  let I := n.l.takeWhile (digitOf n.is)
  { n with has := if n.is = .oct ∧ I.any (fun c => !isOct c) then .dec else n.has, empty := n.empty && I.isEmpty,
           txt := n.txt ++ I, l := n.l.dropWhile (digitOf n.is) }

def dotA (n : NumA) : NumA :=
  match n.l with
  | '.' :: r => ⟨noOct n.is, noOct n.has, true, n.empty && (r.takeWhile (digitOf n.is)).isEmpty,
      n.txt ++ '.' :: r.takeWhile (digitOf n.is), r.dropWhile (digitOf n.is)⟩
  | _ => n

def signA (l : List Char) : List Char × List Char :=
  match l with
  | '-' :: r => (['-'], r)
  | '+' :: r => (['+'], r)
  | l => ([], l)

def isExp (b : Base) (c : Char) : Bool := if b = .hex then c == 'p' || c == 'P' else c == 'e' || c == 'E'

def expA (n : NumA) : NumA :=
  match n.l with
  | c :: r => if isExp n.is c then
      let q := signA r
      ⟨noOct n.is, noOct n.has, true, (q.2.takeWhile isDec).isEmpty, n.txt ++ c :: (q.1 ++ q.2.takeWhile isDec), q.2.dropWhile isDec⟩
    else n
  | [] => n

def typeA (n : NumA) : TT :=
  if n.empty = true ∨ n.is ≠ n.has then .error else
  match n.is with
  | .oct => .octInt
  | .dec => if n.isFloat then .decFloat else .decInt
  | .hex => if n.isFloat then .hexFloat else .hexInt

def numA (l : List Char) : NumA := expA (dotA (digitsA (prefixA l)))

/-- The concrete number state `n`, reached from `s0`, corresponds to `a`. -/
structure NRel (s0 : Lx) (n : Num) (a : NumA) : Prop where
  is : n.is = a.is
  has : n.has = a.has
  isFloat : n.isFloat = a.isFloat
  empty : n.empty = a.empty
  eats : Eats s0 a.txt n.s
  l : view n.s = a.l

theorem nrel_prefix {s : Lx} (hi : Inv s) : NRel s (numPrefix s) (prefixA (view s)) := by
  have h0 : NRel s (if s.c = some '0' then ⟨.oct, .oct, false, false, s.push⟩ else ⟨.dec, .dec, false, true, s⟩ : Num)
      (zeroA (view s)) := by
    by_cases hc : s.c = some '0'
    · rw [if_pos hc]
      have hv := view_some hc
      have := push_view hi hv
      rw [hv]
      exact ⟨rfl, rfl, rfl, rfl, this.1, this.2⟩
    · rw [if_neg hc]
      have : zeroA (view s) = ⟨.dec, .dec, false, true, [], view s⟩ := by
        cases hv : view s with
        | nil => rfl
        | cons x l =>
          have : x ≠ '0' := fun hx => hc (by rw [(view_cons hv).1, hx])
          unfold zeroA
          split
          · rename_i heq; simp only [List.cons.injEq] at heq; exact absurd heq.1 this
          · rfl
      rw [this]
      exact ⟨rfl, rfl, rfl, rfl, Eats.refl hi, rfl⟩
  unfold numPrefix prefixA
  generalize (if s.c = some '0' then ⟨.oct, .oct, false, false, s.push⟩ else ⟨.dec, .dec, false, true, s⟩ : Num) = n at h0 ⊢
  generalize zeroA (view s) = a at h0 ⊢
  simp only
  cases hl : a.l with
  | nil =>
    have : n.s.c = none := view_nil (by rw [h0.l, hl])
    simp only [this]
    simpa using h0
  | cons c r =>
    have hv : view n.s = c :: r := by rw [h0.l, hl]
    have hc := (view_cons hv).1
    simp only [hc, Option.some.injEq]
    by_cases hx : c = 'x' ∨ c = 'X'
    · rw [if_pos hx, if_pos hx]
      have := push_view h0.eats.inv hv
      exact ⟨rfl, rfl, rfl, rfl, h0.eats.trans this.1, this.2⟩
    · rw [if_neg hx, if_neg hx]
      exact h0

theorem isOct_isDec {c : Char} (h : isOct c = true) : isDec c = true := by
  simp only [isOct, isDec, decide_eq_true_eq] at h ⊢
  exact ⟨h.1, Char.le_trans h.2 (by decide : '7' ≤ '9')⟩

theorem numLoop_spec (b : Base) : ∀ (f : Nat) (has : Base) (e : Bool) (s : Lx), (view s).length ≤ f → Inv s →
    ∃ s', numLoop b f has e s = (if b = .oct ∧ ((view s).takeWhile (digitOf b)).any (fun c => !isOct c) then .dec else has,
      e && ((view s).takeWhile (digitOf b)).isEmpty, s') ∧
      Eats s ((view s).takeWhile (digitOf b)) s' ∧ view s' = (view s).dropWhile (digitOf b) := by
  intro f
  induction f with
  | zero =>
    intro has e s hf hi
    have hv : view s = [] := List.length_eq_zero_iff.1 (by omega)
    refine ⟨s, ?_, ?_, ?_⟩ <;> simp [numLoop, hv, Eats.refl hi]
  | succ f ih =>
    intro has e s hf hi
    cases hv : view s with
    | nil =>
      have hc : s.c = none := view_nil hv
      refine ⟨s, ?_, ?_, ?_⟩
      · simp [numLoop, hc, is]
      · simpa using Eats.refl hi
      · simpa using hv
    | cons x l =>
      obtain ⟨hc, -⟩ := view_cons hv
      obtain ⟨he, hl⟩ := push_view hi hv
      have ihs := fun has' e' => ih has' e' s.push (by rw [hl]; simp [hv] at hf; omega) he.inv
      rw [hl] at ihs
      by_cases hd : digitOf b x = true
      · simp only [List.takeWhile_cons, List.dropWhile_cons, hd, if_true]
        have key : ∀ has', (has' = if b = .oct ∧ isOct x = false then Base.dec else has) →
            numLoop b (f+1) has e s = numLoop b f has' false s.push := by
          intro has' hh
          subst hh
          rw [numLoop]
          simp only [hc, is, Option.elim_some]
          cases b <;> simp [digitOf] at hd ⊢
          · by_cases ho : isOct x = true
            · simp [ho]
            · simp [ho, hd]
          · simp [hd]
          · simp [hd]
        obtain ⟨s', h1, h2, h3⟩ := ihs (if b = .oct ∧ isOct x = false then Base.dec else has) false
        refine ⟨s', ?_, he.trans h2, h3⟩
        rw [key _ rfl, h1]
        congr 1
        · cases b <;> simp
          cases isOct x <;> simp
        · simp
      · simp only [List.takeWhile_cons, List.dropWhile_cons, hd]
        refine ⟨s, ?_, by simpa using Eats.refl hi, by simpa using hv⟩
        rw [numLoop]
        simp only [hc, is, Option.elim_some]
        cases b <;> simp [digitOf] at hd ⊢
        · have : isOct x = false := by
            cases ho : isOct x
            · rfl
            · rw [isOct_isDec ho] at hd; simp at hd
          simp [hd, this]
        · simp [hd]
        · simp [hd]

theorem nrel_digits {s0 n a} (h : NRel s0 n a) : NRel s0 (numDigits n) (digitsA a) := by
  obtain ⟨s', h1, h2, h3⟩ := numLoop_spec n.is n.s.fuel n.has n.empty n.s (length_view_le _) h.eats.inv
  unfold numDigits digitsA
  simp only
  rw [h1]
  simp only [h.is, h.has, h.empty, h.l] at h2 h3 ⊢
  exact ⟨rfl, by simp, h.isFloat, rfl, h.eats.trans h2, h3⟩

theorem nrel_dot {s0 n a} (h : NRel s0 n a) : NRel s0 (numDot n) (dotA a) := by
  unfold numDot dotA
  cases hl : a.l with
  | nil =>
    have : n.s.c = none := view_nil (by rw [h.l, hl])
    simpa [this] using h
  | cons c r =>
    have hv : view n.s = c :: r := by rw [h.l, hl]
    have hc := (view_cons hv).1
    by_cases hx : c = '.'
    · subst hx
      rw [if_pos hc]
      obtain ⟨he, hr⟩ := push_view h.eats.inv hv
      have hemp : ∀ p : Char → Bool, (if is p n.s.push.c = true then false else n.empty) = (a.empty && (r.takeWhile p).isEmpty) := by
        intro p
        rw [is_head, hr, h.empty]
        cases r with
        | nil => simp
        | cons y r => by_cases hp : p y = true <;> simp [hp]
      have key : ∀ p : Char → Bool, Eats s0 (a.txt ++ '.' :: r.takeWhile p) (pushWhile p n.s.push.fuel n.s.push) ∧
          view (pushWhile p n.s.push.fuel n.s.push) = r.dropWhile p := by
        intro p
        obtain ⟨h1, h2⟩ := pushWhile_fuel p he.inv
        rw [hr] at h1 h2
        exact ⟨by simpa using h.eats.trans (he.trans h1), h2⟩
      simp only [h.is, h.has]
      cases hb : a.is
      · rw [if_pos (by decide)]
        exact ⟨rfl, rfl, rfl, hemp _, (key _).1, (key _).2⟩
      · rw [if_pos (by decide)]
        exact ⟨rfl, rfl, rfl, hemp _, (key _).1, (key _).2⟩
      · rw [if_neg (by decide)]
        exact ⟨rfl, rfl, rfl, hemp _, (key _).1, (key _).2⟩
    · rw [if_neg (by rw [hc]; simpa using hx)]
      split
      · rename_i heq; simp only [List.cons.injEq] at heq; exact absurd heq.1 hx
      · exact h

theorem sign_spec {s : Lx} (hi : Inv s) :
    Eats s (signA (view s)).1 (if s.c = some '-' ∨ s.c = some '+' then s.push else s) ∧
    view (if s.c = some '-' ∨ s.c = some '+' then s.push else s) = (signA (view s)).2 := by
  cases hv : view s with
  | nil =>
    have : s.c = none := view_nil hv
    simp only [this, reduceCtorEq, or_self, if_false, signA]
    exact ⟨Eats.refl hi, hv⟩
  | cons c r =>
    have hc := (view_cons hv).1
    obtain ⟨he, hr⟩ := push_view hi hv
    by_cases h1 : c = '-'
    · subst h1
      rw [if_pos (Or.inl hc)]; exact ⟨he, hr⟩
    · by_cases h2 : c = '+'
      · subst h2
        rw [if_pos (Or.inr hc)]; exact ⟨he, hr⟩
      · rw [if_neg (by rw [hc]; simp [h1, h2])]
        have : signA (c :: r) = ([], c :: r) := by
          unfold signA
          split
          · rename_i heq; simp only [List.cons.injEq] at heq; exact absurd heq.1 h1
          · rename_i heq; simp only [List.cons.injEq] at heq; exact absurd heq.1 h2
          · rfl
        rw [this]
        exact ⟨Eats.refl hi, hv⟩

theorem nrel_exp {s0 n a} (h : NRel s0 n a) : NRel s0 (numExp n) (expA a) := by
  unfold numExp expA
  cases hl : a.l with
  | nil =>
    have : n.s.c = none := view_nil (by rw [h.l, hl])
    simpa [this] using h
  | cons c r =>
    have hv : view n.s = c :: r := by rw [h.l, hl]
    have hc := (view_cons hv).1
    have hcond : ((n.is = .oct ∧ (n.s.c = some 'e' ∨ n.s.c = some 'E')) ∨ (n.is = .dec ∧ (n.s.c = some 'e' ∨ n.s.c = some 'E')) ∨
      (n.is = .hex ∧ (n.s.c = some 'p' ∨ n.s.c = some 'P'))) ↔ isExp a.is c = true := by
      rw [hc, h.is]
      cases a.is <;> simp [isExp]
    by_cases hx : isExp a.is c = true
    · rw [if_pos (hcond.2 hx)]
      simp only
      rw [if_pos hx]
      obtain ⟨he, hr⟩ := push_view h.eats.inv hv
      obtain ⟨h1, h2⟩ := sign_spec he.inv
      rw [hr] at h1 h2
      generalize (if n.s.push.c = some '-' ∨ n.s.push.c = some '+' then n.s.push.push else n.s.push) = s1 at h1 h2 ⊢
      obtain ⟨h3, h4⟩ := pushWhile_fuel isDec h1.inv
      rw [h2] at h3 h4
      refine ⟨by rw [h.is], by rw [h.has], rfl, ?_, ?_, h4⟩
      · simp only
        rw [is_head, h2]
        cases (signA r).2 with
        | nil => simp
        | cons y q => cases hp : isDec y <;> simp [hp]
      · have := h.eats.trans (he.trans (h1.trans h3))
        simpa using this
    · rw [if_neg (fun hh => hx (hcond.1 hh))]
      simp only
      rw [if_neg hx]
      exact h

theorem nrel_num {s : Lx} (hi : Inv s) : NRel s (numExp (numDot (numDigits (numPrefix s)))) (numA (view s)) :=
  nrel_exp (nrel_dot (nrel_digits (nrel_prefix hi)))

theorem internalize_eq {s : Lx} (h : Char.ofNat 0 ∉ s.buf) : s.internalize = s.buf := by
  unfold Lx.internalize
  rw [List.takeWhile_eq_self_iff]
  intro c hc
  simpa using fun hh : c = Char.ofNat 0 => h (hh ▸ hc)

/-- What reading a token from `s` must yield: the token with text `w`, which is consumed. -/
structure Reads (p : Pos) (s : Lx) (w : List Char) (ty : TT) (r : Token × Lx) : Prop where
  tok : r.1 = ⟨p, w, ty⟩
  inv : Inv r.2
  v : view s = w ++ view r.2
  pos : r.2.pos = advP s.pos w

theorem Eats.reads {p : Pos} {s s' : Lx} {w ty} (hb : s.buf = []) (h : Eats s w s') (hn : Char.ofNat 0 ∉ view s) :
    Reads p s w ty (⟨p, s'.internalize, ty⟩, s') := by
  have hbuf : s'.buf = w := by rw [h.buf, hb, List.nil_append]
  refine ⟨?_, h.inv, h.v, h.pos⟩
  simp only
  rw [internalize_eq, hbuf]
  rw [hbuf]
  intro hw
  exact hn (by rw [h.v]; exact List.mem_append_left _ hw)

theorem readNumber_spec {p : Pos} {s : Lx} (hi : Inv s) (hb : s.buf = []) (hn : Char.ofNat 0 ∉ view s) :
    Reads p s (numA (view s)).txt (typeA (numA (view s))) (readNumber p s) := by
  have h := nrel_num hi
  unfold readNumber
  have ht : (if (numExp (numDot (numDigits (numPrefix s)))).empty = true ∨
      (numExp (numDot (numDigits (numPrefix s)))).is ≠ (numExp (numDot (numDigits (numPrefix s)))).has then TT.error
      else numType (numExp (numDot (numDigits (numPrefix s))))) = typeA (numA (view s)) := by
    unfold typeA numType
    rw [h.empty, h.is, h.has, h.isFloat]
    generalize numA (view s) = a
    cases a.is <;> rfl
  simp only
  rw [ht]
  exact h.eats.reads hb hn

/-! ### Identifiers, strings, dates, instructions -/

def idChar (c : Char) : Bool := c == '_' || isAlnum c

def identType (w : List Char) : TT := if w ∈ keywords then .kw w else .identifier

theorem readIdent_spec {p : Pos} {s : Lx} (hi : Inv s) (hb : s.buf = []) (hn : Char.ofNat 0 ∉ view s) :
    Reads p s ((view s).takeWhile idChar) (identType ((view s).takeWhile idChar)) (readIdent p s) := by
  obtain ⟨h1, -⟩ := pushWhile_fuel idChar hi
  have h2 := h1.reads (p := p) (ty := identType ((view s).takeWhile idChar)) hb hn
  have htok := h2.tok
  simp only [Token.mk.injEq, true_and] at htok
  unfold readIdent
  change Reads p s _ _ (⟨p, (pushWhile idChar s.fuel s).internalize,
    if (pushWhile idChar s.fuel s).internalize ∈ keywords then .kw (pushWhile idChar s.fuel s).internalize else .identifier⟩,
    pushWhile idChar s.fuel s)
  have : (if (pushWhile idChar s.fuel s).internalize ∈ keywords then TT.kw (pushWhile idChar s.fuel s).internalize
      else .identifier) = identType ((view s).takeWhile idChar) := by
    rw [htok.1]; rfl
  rw [this]
  exact h2

/-- Consumed text, rest, and whether an invalid escape sequence occurred. -/
def strA : List Char → Bool × List Char × List Char
  | [] => (false, [], [])
  | c :: l =>
    if c = '"' then (false, [], c :: l)
    else if c = '\\' then
      match l with
      | [] => (true, [c], [])
      | y :: r =>
        let q := strA r
        ((!(decide (y = '"' ∨ y = '\\' ∨ y = 'n' ∨ y = 't'))) || q.1, c :: y :: q.2.1, q.2.2)
    else
      let q := strA l
      (q.1, c :: q.2.1, q.2.2)

theorem strLoop_spec : ∀ (f : Nat) (inv : Bool) (s : Lx), (view s).length ≤ f → Inv s → (view s).getLast? ≠ some '\\' →
    ∃ s', strLoop f inv s = (inv || (strA (view s)).1, s') ∧ Eats s (strA (view s)).2.1 s' ∧ view s' = (strA (view s)).2.2 := by
  intro f
  induction f with
  | zero =>
    intro inv s hf hi _
    have hv : view s = [] := List.length_eq_zero_iff.1 (by omega)
    exact ⟨s, by simp [strLoop, hv, strA], by simpa [hv, strA] using Eats.refl hi, by simp [hv, strA]⟩
  | succ f ih =>
    intro inv s hf hi hlast
    cases hv : view s with
    | nil =>
      have hc : s.c = none := view_nil hv
      exact ⟨s, by simp [strLoop, hc, strA], by simpa [strA] using Eats.refl hi, by simp [hv, strA]⟩
    | cons x l =>
      obtain ⟨hc, -⟩ := view_cons hv
      obtain ⟨he, hl⟩ := push_view hi hv
      rw [hv] at hf hlast
      unfold strA
      by_cases hq : x = '"'
      · rw [if_pos hq]
        refine ⟨s, ?_, Eats.refl hi, hv⟩
        simp [strLoop, hc, hq]
      · rw [if_neg hq]
        by_cases hb : x = '\\'
        · rw [if_pos hb]
          cases l with
          | nil => simp [hb] at hlast
          | cons y r =>
            obtain ⟨hc1, -⟩ := view_cons hl
            obtain ⟨he1, hl1⟩ := push_view he.inv hl
            have hlast1 : r.getLast? ≠ some '\\' := by
              cases r with
              | nil => simp
              | cons z r => simpa [List.getLast?_cons_cons] using hlast
            obtain ⟨s', h1, h2, h3⟩ := ih (if s.push.c = some '"' ∨ s.push.c = some '\\' ∨ s.push.c = some 'n' ∨ s.push.c = some 't' then inv else true)
              s.push.push (by rw [hl1]; simp at hf; omega) he1.inv (by rw [hl1]; exact hlast1)
            rw [hl1] at h1 h2 h3
            refine ⟨s', ?_, ?_, h3⟩
            · rw [strLoop, if_pos (by rw [hc]; simpa using hq), if_pos (by rw [hc, hb])]
              simp only
              rw [h1, hc1]
              simp only [Option.some.injEq]
              congr 1
              by_cases hy : y = '"' ∨ y = '\\' ∨ y = 'n' ∨ y = 't'
              · simp [hy]
              · simp [hy]
            · exact (he.trans he1).trans h2
        · rw [if_neg hb]
          have hlast1 : l.getLast? ≠ some '\\' := by
            cases l with
            | nil => simp
            | cons z r => simpa [List.getLast?_cons_cons] using hlast
          obtain ⟨s', h1, h2, h3⟩ := ih inv s.push (by rw [hl]; simp at hf; omega) he.inv (by rw [hl]; exact hlast1)
          rw [hl] at h1 h2 h3
          refine ⟨s', ?_, he.trans h2, h3⟩
          rw [strLoop, if_pos (by rw [hc]; simpa using hq), if_neg (by rw [hc]; simpa using hb)]
          exact h1

/-- Text and type of a string literal; `l` is the input behind the opening quote. -/
def stringA (l : List Char) : List Char × TT :=
  let q := strA l
  match q.2.2 with
  | [] => ('"' :: q.2.1, .error)
  | _ :: _ => ('"' :: q.2.1 ++ ['"'], if q.1 then .error else .stringLiteral)

theorem strA_rest (l : List Char) : (strA l).2.2 = [] ∨ ∃ r, (strA l).2.2 = '"' :: r := by
  fun_induction strA l with
  | case1 => simp
  | case2 l => simp
  | case3 => simp
  | case4 y r _ q ih => exact ih
  | case5 c l _ _ q ih => exact ih

theorem readString_spec {p : Pos} {s : Lx} {l} (hi : Inv s) (hb : s.buf = []) (hn : Char.ofNat 0 ∉ view s)
    (hv : view s = '"' :: l) (hlast : (view s).getLast? ≠ some '\\') :
    Reads p s (stringA l).1 (stringA l).2 (readString p s) := by
  obtain ⟨he, hl⟩ := push_view hi hv
  have hlast1 : l.getLast? ≠ some '\\' := by
    rw [hv] at hlast
    cases l with
    | nil => simp
    | cons z r => simpa [List.getLast?_cons_cons] using hlast
  obtain ⟨s', h1, h2, h3⟩ := strLoop_spec s.push.fuel false s.push (length_view_le _) he.inv (by rw [hl]; exact hlast1)
  rw [hl] at h1 h2 h3
  unfold readString
  simp only
  rw [h1]
  simp only [Bool.false_or]
  unfold stringA
  simp only
  rcases strA_rest l with h0 | ⟨r, h0⟩
  · rw [h0] at h3
    rw [h0]
    have hc : s'.c ≠ some '"' := by rw [view_nil h3]; simp
    simp only [hc, ne_eq, not_false_eq_true, if_true]
    exact (he.trans h2).reads hb hn
  · rw [h0] at h3
    rw [h0]
    have hc : s'.c = some '"' := (view_cons h3).1
    simp only [hc, ne_eq, not_true_eq_false, if_false]
    obtain ⟨h4, h5⟩ := push_view h2.inv h3
    exact ((he.trans h2).trans h4).reads hb hn

/-! #### Dates -/

/-- A list level state: invalid flag, consumed text, rest. -/
abbrev DA := Bool × List Char × List Char

def digitsD : Nat → DA → DA
  | 0, r => r
  | k + 1, r => digitsD k (match r.2.2 with
    | c :: l => if isDec c then (r.1, r.2.1 ++ [c], l) else (true, r.2)
    | [] => (true, r.2))

def acceptD (c : Char) (r : List Char × List Char) : Bool × List Char × List Char :=
  match r.2 with
  | x :: l => if x = c then (true, r.1 ++ [x], l) else (false, r)
  | [] => (false, r)

def andAcceptD (c : Char) (r : DA) : DA :=
  let a := acceptD c r.2
  (r.1 && a.1, a.2)

structure DRel (s0 : Lx) (r : Bool × Lx) (a : DA) : Prop where
  b : r.1 = a.1
  eats : Eats s0 a.2.1 r.2
  l : view r.2 = a.2.2

theorem drel_accept {s0 : Lx} {s : Lx} {w l : List Char} (c : Char) (h : Eats s0 w s) (hl : view s = l) :
    DRel s0 (s.accept c) (acceptD c (w, l)) := by
  unfold Lx.accept acceptD
  cases l with
  | nil =>
    rw [if_neg (by rw [view_nil hl]; simp)]
    exact ⟨rfl, h, hl⟩
  | cons x r =>
    have hc := (view_cons hl).1
    by_cases hx : x = c
    · rw [if_pos (by rw [hc, hx])]
      simp only
      rw [if_pos hx]
      obtain ⟨h1, h2⟩ := push_view h.inv hl
      exact ⟨rfl, h.trans h1, h2⟩
    · rw [if_neg (by rw [hc]; simpa using hx)]
      simp only
      rw [if_neg hx]
      exact ⟨rfl, h, hl⟩

theorem drel_andAccept {s0 : Lx} {r a} (c : Char) (h : DRel s0 r a) : DRel s0 (andAccept c r) (andAcceptD c a) := by
  have := drel_accept c h.eats h.l
  unfold andAccept andAcceptD
  exact ⟨by simp only; rw [h.b, this.b], this.eats, this.l⟩

theorem drel_digits {s0 : Lx} : ∀ (k : Nat) {r a}, DRel s0 r a → DRel s0 (digits k r) (digitsD k a) := by
  intro k
  induction k with
  | zero => intro r a h; exact h
  | succ k ih =>
    intro r a h
    unfold digits digitsD
    apply ih
    rw [is_head, h.l]
    cases hl : a.2.2 with
    | nil =>
      simp only [List.head?_nil, Option.elim_none, Bool.false_eq_true, if_false]
      exact ⟨rfl, h.eats, h.l⟩
    | cons c l =>
      simp only [List.head?_cons, Option.elim_some]
      by_cases hd : isDec c = true
      · simp only [hd, if_true]
        obtain ⟨h1, h2⟩ := push_view h.eats.inv (h.l.trans hl)
        exact ⟨h.b, h.eats.trans h1, h2⟩
      · simp only [hd, if_false]
        exact ⟨rfl, h.eats, h.l⟩

def ymdD (r : DA) : DA := digitsD 2 (andAcceptD '-' (digitsD 2 (andAcceptD '-' (digitsD 4 r))))
def hmsD (r : DA) : DA := digitsD 2 (andAcceptD ':' (digitsD 2 (andAcceptD ':' (digitsD 2 r))))

/-- The state before the closing quote, and whether there is a time; `l` is the input behind `d'`. -/
def dateBodyA (l : List Char) : Bool × DA :=
  let r := ymdD (false, (acceptD '-' ([], l)).2)
  let a := acceptD ' ' r.2
  (a.1, if a.1 then hmsD (r.1, a.2) else r)

def dateA (l : List Char) : List Char × TT :=
  let q := dateBodyA l
  match q.2.2.2 with
  | [] => ('d' :: '\'' :: q.2.2.1, .error)
  | c :: _ => if c = '\'' then ('d' :: '\'' :: q.2.2.1 ++ ['\''], if q.2.1 then .error else if q.1 then .dateTime else .date)
    else ('d' :: '\'' :: q.2.2.1, .error)

theorem readDate_spec {p : Pos} {s s1 : Lx} {l} (hb : s.buf = []) (hn : Char.ofNat 0 ∉ view s)
    (he : Eats s ['d', '\''] s1.push) (hv : view s1.push = l) :
    Reads p s (dateA l).1 (dateA l).2 (readDate p s1) := by
  unfold readDate
  simp only
  have hi : Inv s1.push := he.inv
  generalize s1.push = s2 at *
  have h0 := drel_accept '-' (Eats.refl hi) hv
  have h1 : DRel s2 (false, (s2.accept '-').2) (false, (acceptD '-' ([], l)).2) := ⟨rfl, h0.eats, h0.l⟩
  have h2 := drel_digits 2 (drel_andAccept '-' (drel_digits 2 (drel_andAccept '-' (drel_digits 4 h1))))
  change DRel s2 _ (ymdD (false, (acceptD '-' ([], l)).2)) at h2
  have h3 := drel_accept ' ' h2.eats h2.l
  generalize digits 2 (andAccept '-' (digits 2 (andAccept '-' (digits 4 (false, (s2.accept '-').2))))) = r at *
  unfold dateA dateBodyA
  simp only
  generalize ymdD (false, (acceptD '-' ([], l)).2) = a at *
  rw [h3.b]
  have h4 : DRel s2 (if (acceptD ' ' a.2).1 = true then digits 2 (andAccept ':' (digits 2 (andAccept ':' (digits 2 (r.1, (r.2.accept ' ').2))))) else r)
      (if (acceptD ' ' a.2).1 = true then hmsD (a.1, (acceptD ' ' a.2).2) else a) := by
    by_cases hh : (acceptD ' ' a.2).1 = true
    · rw [if_pos hh, if_pos hh]
      exact drel_digits 2 (drel_andAccept ':' (drel_digits 2 (drel_andAccept ':' (drel_digits 2 ⟨h2.b, h3.eats, h3.l⟩))))
    · rw [if_neg hh, if_neg hh]
      exact h2
  generalize (if (acceptD ' ' a.2).1 = true then digits 2 (andAccept ':' (digits 2 (andAccept ':' (digits 2 (r.1, (r.2.accept ' ').2))))) else r) = r' at *
  generalize (if (acceptD ' ' a.2).1 = true then hmsD (a.1, (acceptD ' ' a.2).2) else a) = a' at *
  cases hl : a'.2.2 with
  | nil =>
    have hc : r'.2.c ≠ some '\'' := by rw [view_nil (h4.l.trans hl)]; simp
    simp only [hc, ne_eq, not_false_eq_true, if_true]
    exact (he.trans h4.eats).reads hb hn
  | cons c q =>
    have hc := (view_cons (h4.l.trans hl)).1
    by_cases hx : c = '\''
    · obtain ⟨h5, h6⟩ := push_view h4.eats.inv (h4.l.trans hl)
      subst hx
      simp only [hc, ne_eq, not_true_eq_false, if_false, if_true, h4.b]
      have := ((he.trans h4.eats).trans h5).reads (p := p) (ty := if a'.1 = true then TT.error else if (acceptD ' ' a.2).1 = true then .dateTime else .date) hb hn
      simpa using this
    · have hc' : r'.2.c ≠ some '\'' := by rw [hc]; simpa using hx
      simp only [hc', hx, ne_eq, not_false_eq_true, if_false, if_true]
      exact (he.trans h4.eats).reads hb hn

theorem readInstruction_spec {p : Pos} {s : Lx} {l} (hi : Inv s) (hb : s.buf = []) (hn : Char.ofNat 0 ∉ view s)
    (hv : view s = '\\' :: l) :
    Reads p s ('\\' :: l.takeWhile (· ≠ ';')) .instruction (readInstruction p s) := by
  obtain ⟨he, hl⟩ := push_view hi hv
  obtain ⟨h1, -⟩ := pushWhile_fuel (· ≠ ';') he.inv
  rw [hl] at h1
  exact (he.trans h1).reads hb hn

/-! ### Dispatch -/

/-- Text and type of the token at the beginning of `x :: l`. -/
def scan (x : Char) (l : List Char) : List Char × TT :=
  if isDec x then ((numA (x :: l)).txt, typeA (numA (x :: l)))
  else if x = '"' then stringA l
  else if x = 'd' then
    match l with
    | '\'' :: r => dateA r
    | _ => ((x :: l).takeWhile idChar, identType ((x :: l).takeWhile idChar))
  else if x = '!' then if l.head? = some '=' then (['!', '='], .bangEqual) else (['!'], .error)
  else if x = '<' then if l.head? = some '=' then (['<', '='], .lessEqual) else (['<'], .less)
  else if x = '>' then if l.head? = some '=' then (['>', '='], .greaterEqual) else (['>'], .greater)
  else if x = '.' then
    if l.head? = some '.' then (['.', '.'], .dotdot)
    else if l.head?.elim false isDec then ((numA (x :: l)).txt, typeA (numA (x :: l)))
    else (['.'], .dot)
  else if x = '\\' then ('\\' :: l.takeWhile (· ≠ ';'), .instruction)
  else match single x with
    | some tt => ([x], tt)
    | none => if x = '_' ∨ isAlpha x then ((x :: l).takeWhile idChar, identType ((x :: l).takeWhile idChar)) else ([x], .error)

theorem Skips.reads {p : Pos} {s s' : Lx} {w ty} (h : Skips s w s') : Reads p s w ty (⟨p, w, ty⟩, s') :=
  ⟨rfl, h.inv, h.v, h.pos⟩

theorem dispatch_spec {p : Pos} {s : Lx} {x l} (hi : Inv s) (hb : s.buf = []) (hn : Char.ofNat 0 ∉ view s)
    (hv : view s = x :: l) (hlast : (view s).getLast? ≠ some '\\') :
    Reads p s (scan x l).1 (scan x l).2 (dispatch p s x) := by
  obtain ⟨hc, hrest⟩ := view_cons hv
  obtain ⟨hst, hstv⟩ := step_spec hi hc
  rw [hrest] at hstv
  have hstep : s.step.c = l.head? := by rw [c_eq, hstv]
  have two : ∀ {y : Char} {ty : TT}, l.head? = some y → Reads p s [x, y] ty (⟨p, [x, y], ty⟩, s.step.step) := by
    intro y ty hy
    obtain ⟨h1, -⟩ := step_spec hst.inv (hstep.trans hy)
    exact (hst.trans h1).reads
  have ret : ∀ {w ty r}, x ≠ '\n' → Reads p (s.step.undo x) w ty r → Reads p s w ty r := by
    intro w ty r hx h
    obtain ⟨u1, u2, u3, u4, u5⟩ := undo_spec hi hc hx
    exact ⟨h.tok, h.inv, by rw [← u2]; exact h.v, by rw [← u3]; exact h.pos⟩
  have und : x ≠ '\n' → Inv (s.step.undo x) ∧ (s.step.undo x).buf = [] ∧ Char.ofNat 0 ∉ view (s.step.undo x) ∧
      view (s.step.undo x) = x :: l ∧ (s.step.undo x).c = some x := by
    intro hx
    obtain ⟨u1, u2, u3, u4, u5⟩ := undo_spec hi hc hx
    exact ⟨u1, u4.trans hb, by rw [u2]; exact hn, u2.trans hv, u5⟩
  have ill : ∀ {s : Lx}, Inv s → s.buf = [] → Char.ofNat 0 ∉ view s → s.c = some x → Reads p s [x] .error (illegal p s) := by
    intro s hi hb hn hc
    exact (push_spec hi hc).1.reads hb hn
  unfold dispatch scan
  simp only
  by_cases h1 : isDec x = true
  · rw [if_pos h1, if_pos h1]
    have := readNumber_spec (p := p) hi hb hn
    rw [hv] at this; exact this
  rw [if_neg h1, if_neg h1]
  by_cases h2 : x = '"'
  · rw [if_pos h2, if_pos h2]
    exact readString_spec hi hb hn (by rw [hv, h2]) hlast
  rw [if_neg h2, if_neg h2]
  by_cases h3 : x = 'd'
  · rw [if_pos h3, if_pos h3]
    have hx : x ≠ '\n' := by rw [h3]; decide
    have hid : Reads p s ((x :: l).takeWhile idChar) (identType ((x :: l).takeWhile idChar)) (readIdent p (s.step.undo 'd')) := by
      have hu := und hx
      have := readIdent_spec (p := p) hu.1 hu.2.1 hu.2.2.1
      rw [hu.2.2.2.1] at this
      have := ret hx this
      rwa [h3] at this ⊢
    cases hl : l with
    | nil =>
      rw [if_neg (by rw [hstep, hl]; simp)]
      rw [hl] at hid
      exact hid
    | cons y r =>
      by_cases hy : y = '\''
      · subst hy
        rw [if_pos (by rw [hstep, hl]; rfl)]
        have hc1 : s.step.c = some '\'' := by rw [hstep, hl]; rfl
        set s1 : Lx := { s.step with buf := s.step.buf ++ ['d'] } with hs1
        have hi1 : Inv s1 := ⟨hst.inv.fr, hst.inv.cn⟩
        have hv1 : view s1 = '\'' :: r := by rw [← hl, ← hstv]; rfl
        obtain ⟨h4, h5⟩ := push_view hi1 hv1
        refine readDate_spec hb hn ⟨h4.inv, ?_, ?_, ?_⟩ h5
        · rw [hv, hl, h5, h3]; rfl
        · rw [h4.pos]
          have := hst.pos
          change advP s.step.pos ['\''] = _
          rw [this, h3, ← advP_append]; rfl
        · rw [h4.buf]
          change s.step.buf ++ ['d'] ++ ['\''] = _
          rw [hst.buf]; simp
      · rw [if_neg (by rw [hstep, hl]; simpa using hy)]
        split
        · rename_i heq; simp only [List.cons.injEq] at heq; exact absurd heq.1 hy
        · rw [hl] at hid; exact hid
  rw [if_neg h3, if_neg h3]
  by_cases h4 : x = '!'
  · rw [if_pos h4, if_pos h4, hstep]
    by_cases hy : l.head? = some '='
    · rw [if_pos hy, if_pos hy]
      have := two (ty := .bangEqual) hy
      rwa [h4] at this
    · rw [if_neg hy, if_neg hy]
      have hx : x ≠ '\n' := by rw [h4]; decide
      have hu := und hx
      have := ret hx (ill hu.1 hu.2.1 hu.2.2.1 hu.2.2.2.2)
      rw [h4] at this; exact this
  rw [if_neg h4, if_neg h4]
  by_cases h5 : x = '<'
  · rw [if_pos h5, if_pos h5, hstep]
    by_cases hy : l.head? = some '='
    · rw [if_pos hy, if_pos hy]
      have := two (ty := .lessEqual) hy
      rwa [h5] at this
    · rw [if_neg hy, if_neg hy]
      have := hst.reads (p := p) (ty := .less)
      rwa [h5] at this
  rw [if_neg h5, if_neg h5]
  by_cases h6 : x = '>'
  · rw [if_pos h6, if_pos h6, hstep]
    by_cases hy : l.head? = some '='
    · rw [if_pos hy, if_pos hy]
      have := two (ty := .greaterEqual) hy
      rwa [h6] at this
    · rw [if_neg hy, if_neg hy]
      have := hst.reads (p := p) (ty := .greater)
      rwa [h6] at this
  rw [if_neg h6, if_neg h6]
  by_cases h7 : x = '.'
  · rw [if_pos h7, if_pos h7, hstep]
    by_cases hy : l.head? = some '.'
    · rw [if_pos hy, if_pos hy]
      have := two (ty := .dotdot) hy
      rwa [h7] at this
    · rw [if_neg hy, if_neg hy]
      have hx : x ≠ '\n' := by rw [h7]; decide
      by_cases hd : l.head?.elim false isDec = true
      · rw [if_pos hd, if_pos (by unfold is; exact hd)]
        have hu := und hx
        have := readNumber_spec (p := p) hu.1 hu.2.1 hu.2.2.1
        rw [hu.2.2.2.1] at this
        have := ret hx this
        rwa [h7] at this ⊢
      · rw [if_neg hd, if_neg (by unfold is; exact hd)]
        have := hst.reads (p := p) (ty := .dot)
        rwa [h7] at this
  rw [if_neg h7, if_neg h7]
  by_cases h8 : x = '\\'
  · rw [if_pos h8, if_pos h8]
    exact readInstruction_spec hi hb hn (by rw [hv, h8])
  rw [if_neg h8, if_neg h8]
  cases hs : single x with
  | some tt => exact hst.reads
  | none =>
    simp only
    by_cases h9 : x = '_' ∨ isAlpha x = true
    · rw [if_pos h9, if_pos h9]
      have := readIdent_spec (p := p) hi hb hn
      rw [hv] at this; exact this
    · rw [if_neg h9, if_neg h9]
      exact ill hi hb hn hc

end Mutable.Lex
