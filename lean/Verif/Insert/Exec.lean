import Verif.Insert.Fill

namespace Mutable.Ins

open SM Layout

/-! ### Running the tuple machine -/

theorem irun_append (M : Mach) (a b : List IOp) (s : List Slot × Tup) :
    irun M (a ++ b) s = (irun M a s).bind (irun M b) := by
  induction a generalizing s with
  | nil => rfl
  | cons o a ih =>
    simp only [List.cons_append, irun, bind]
    cases istep M o s with
    | error e => rfl
    | ok s' => exact ih s'

theorem irun_ex (M : Mach) (os : List Op) (S : List Slot) (t : Tup) :
    irun M (os.map .ex) (S, t) = (run M os S).bind (fun S' => .ok (S', t)) := by
  induction os generalizing S with
  | nil => rfl
  | cons o os ih =>
    simp only [List.map_cons, irun, run, istep, bind]
    cases step M o S with
    | error e => rfl
    | ok S' => exact ih S'

/-- A field of a tuple. -/
def slot (t : Tup) (p : Nat) : Slot := (t.vals p, t.null p)

/-- An arithmetic trap, or a tuple satisfying `P`. -/
def IPost (B : Prop) (P : Tup → Prop) : Except Err (List Slot × Tup) → Prop
  | .error e => e = .overflow ∨ (e = .divZero ∧ B)
  | .ok s => P s.2

/-- What an item does to its field. -/
def RepCell (like : Str → Str → Bool) (c : Col) (it : Item) (old new : Slot) : Prop :=
  match it with
  | .dflt => new = old
  | .null => new.2 = true
  | .expr e dt => new.2 = (itemVal like c (.expr e dt)).isNone ∧
      ∀ v, itemVal like c (.expr e dt) = some v → Holds c.ety new (some v)

theorem slot_set_same (t : Tup) (p : Nat) (v : RVal) (n : Bool) : slot (t.set p v n) p = (v, n) := by
  simp [slot, Tup.set, put]

theorem slot_set_other (t : Tup) {p q : Nat} (h : q ≠ p) (v : RVal) (n : Bool) : slot (t.set p v n) q = slot t q := by
  simp [slot, Tup.set, put, h]

theorem slot_null_same (t : Tup) (p : Nat) : slot { t with null := put t.null p true } p = (t.vals p, true) := by
  simp [slot, put]

theorem slot_null_other (t : Tup) {p q : Nat} (h : q ≠ p) : slot { t with null := put t.null p true } q = slot t q := by
  simp [slot, put, h]

/-- What is known about one item. -/
structure ItemOK (like : Str → Str → Bool) (B : Prop) (cols : List Col) (p : Nat) (it : Item) : Prop where
  ok : valueOK (cols.getD p noCol) it = true
  null : it = .null → vcount cols p = p
  expr : ∀ e dt, it = .expr e dt → ExprOK like (cols.getD p noCol) e ∧
    (∀ v, sem like (fun _ _ => none) e = some v → Fits (cols.getD p noCol) v) ∧
    (∀ x ∈ subs e, DivBad like (fun _ _ => none) x → B)

theorem holds_snd {ty : ETy} {x : Slot} {o : Option SVal} (h : Holds ty x o) : x.2 = o.isNone := h.1

theorem item_run {E : Env} (hre : E.re = E.like) {ctx : List RVal} (hlen : ctx.length ≤ 256) {B : Prop} {cols : List Col} {p : Nat} (hp : p < cols.length)
    (h64 : cols.length ≤ 64) (hv : (cols.getD p noCol).hidden = false) {it : Item} (h : ItemOK E.like B cols p it) (c : ICS) :
    ∃ code, (emitItem cols c (vcount cols p) it).ops = c.ops ++ code ∧ c.ctx <+: (emitItem cols c (vcount cols p) it).ctx ∧
      ((emitItem cols c (vcount cols p) it).ctx <+: ctx → ∀ S t,
        IPost B (fun t' => RepCell E.like (cols.getD p noCol) it (slot t p) (slot t' p) ∧ ∀ q, q ≠ p → slot t' q = slot t q)
          (irun (E.mach ctx) code (S, t))) := by
  have hpm : p % 256 = p := Nat.mod_eq_of_lt (by omega)
  cases it with
  | null =>
    refine ⟨[.stNull (vcount cols p)], rfl, List.prefix_rfl, fun _ S t => ?_⟩
    rw [h.null rfl]
    simp only [irun, istep, bind, Except.bind, IPost, hpm]
    refine ⟨?_, fun q hq => slot_null_other t hq⟩
    rw [slot_null_same]; rfl
  | dflt =>
    exact ⟨[], by simp [emitItem], List.prefix_rfl, fun _ S t => ⟨rfl, fun _ _ => rfl⟩⟩
  | expr e dt =>
    obtain ⟨he, hfit, hdiv⟩ := h.expr e dt rfl
    have hcompat := compat_of_ok h.ok
    set col := cols.getD p noCol with hcol
    set M := E.mach ctx with hM
    have hMl : M.like = E.like := rfl
    have hext : Ext M ⟨[], c.ctx⟩ (emitCast (compile e ⟨[], c.ctx⟩) col.ety e.ty) ((den M e).seq (castD M col.ety e.ty)) :=
      (compile_ext M e _).trans (emitCast_ext M _ _ _)
    have hpost : ∀ S, Post B (fun y => Holds col.ety y (itemVal E.like col (.expr e dt))) S (((den M e).seq (castD M col.ety e.ty)) S) := by
      intro S
      have hs : Sound M (fun _ _ => none) B e := den_post (show M.re = M.like from hre) e he.wt
        ⟨fun x hx => by
            cases x with
            | attr t i ty => exact absurd rfl (he.noAttr _ hx t i ty)
            | _ => trivial,
          he.scale, he.cat, hdiv⟩
      exact (hs S).seq1 (fun x hx => cast_post M hcompat he.int he.cast hx S)
    have hconv : convertId cols (vcount cols p) = p := convertId_eq hp hv
    by_cases hch : ∃ n var, col.ty = .char n var
    · obtain ⟨n, var, hch⟩ := hch
      have hext2 := hext.trans (Ext.load M (emitCast (compile e ⟨[], c.ctx⟩) col.ety e.ty) (.i n))
      obtain ⟨code, e1, e2, e3⟩ := hext2
      have hem : emitItem cols c (vcount cols p) (.expr e dt) =
          ⟨c.ops ++ ((emitCast (compile e ⟨[], c.ctx⟩) col.ety e.ty).load (.i n)).ops.map .ex ++ [.stS p],
            ((emitCast (compile e ⟨[], c.ctx⟩) col.ety e.ty).load (.i n)).ctx⟩ := by
        simp only [emitItem, hconv, ← hcol, hch]
      rw [hem]
      refine ⟨code.map .ex ++ [.stS p], ?_, e2, ?_⟩
      · simp only [e1, List.nil_append, List.append_assoc]
      · intro hpre S t
        have hrun := e3 hpre hlen S
        rw [irun_append, irun_ex, hrun]
        have hety : col.ety = .str := by simp [Col.ety, hch]
        have hq := hpost S
        unfold Den.seq at hq ⊢
        generalize (den M e S).bind (castD M col.ety e.ty) = r at hq ⊢
        cases r with
        | error er => exact hq
        | ok st =>
          obtain ⟨x, rfl, hx⟩ := hq
          rw [hety] at hx
          obtain ⟨s, hx⟩ := hx.str_cases
          rcases hx with ⟨ho, rfl⟩ | ⟨ho, rfl⟩
          · simp only [ldD, Except.bind, irun, istep, if_true, bind, IPost, hpm]
            refine ⟨?_, fun q hq => slot_null_other t hq⟩
            rw [slot_null_same]
            exact ⟨by rw [ho]; rfl, by rw [ho]; rintro v ⟨⟩⟩
          · have hsl : s.length ≤ n := by
              simp only [itemVal, Option.map_eq_some_iff] at ho
              obtain ⟨v, hv1, hv2⟩ := ho
              cases v with
              | str s' =>
                simp only [convert, SVal.str.injEq] at hv2
                subst hv2
                exact (hfit _ hv1).2 n var hch
              | num q => simp [convert] at hv2
              | bool q => simp [convert] at hv2
              | date q => simp [convert] at hv2
            simp only [ldD, Except.bind, irun, istep, bind, IPost, hpm, asI, asS, pure, Except.pure, Bool.false_eq_true, if_false]
            refine ⟨?_, fun q hq => slot_set_other t hq _ _⟩
            rw [slot_set_same]
            rw [show s.take ((n : Int).toNat) = s from List.take_of_length_le (by simpa using hsl)]
            refine ⟨by rw [ho]; rfl, ?_⟩
            rw [ho]
            rintro v ⟨⟩
            rw [hety]
            exact ⟨rfl, s, rfl, by rintro v ⟨⟩; rfl⟩
    · obtain ⟨code, e1, e2, e3⟩ := hext
      have hem : emitItem cols c (vcount cols p) (.expr e dt) =
          ⟨c.ops ++ (emitCast (compile e ⟨[], c.ctx⟩) col.ety e.ty).ops.map .ex ++ [.st p],
            (emitCast (compile e ⟨[], c.ctx⟩) col.ety e.ty).ctx⟩ := by
        simp only [emitItem, hconv, ← hcol]
        split
        · rename_i n var hh; exact absurd ⟨n, var, hh⟩ hch
        · rfl
      rw [hem]
      refine ⟨code.map .ex ++ [.st p], ?_, e2, ?_⟩
      · simp only [e1, List.nil_append, List.append_assoc]
      · intro hpre S t
        have hrun := e3 hpre hlen S
        rw [irun_append, irun_ex, hrun]
        have hq := hpost S
        generalize ((den M e).seq (castD M col.ety e.ty)) S = r at hq ⊢
        cases r with
        | error er => exact hq
        | ok st =>
          obtain ⟨x, rfl, hx⟩ := hq
          simp only [Except.bind, irun, istep, bind, IPost, hpm]
          refine ⟨?_, fun q hq => slot_set_other t hq _ _⟩
          rw [slot_set_same]
          refine ⟨hx.1, ?_⟩
          intro v hv'
          rw [hv'] at hx
          exact hx

/-- What a list of items, starting at rank `i`, does to a tuple. -/
def Eff (like : Str → Str → Bool) (cols : List Col) (i : Nat) (its : List Item) (t t' : Tup) : Prop :=
  ∀ p < cols.length,
    (∀ it, (cols.getD p noCol).hidden = false → i ≤ vcount cols p → its[vcount cols p - i]? = some it →
      RepCell like (cols.getD p noCol) it (slot t p) (slot t' p)) ∧
    (((cols.getD p noCol).hidden = true ∨ vcount cols p < i) → slot t' p = slot t p)

theorem IPost.bind {B : Prop} {P Q : Tup → Prop} {M : Mach} {code : List IOp} {r : Except Err (List Slot × Tup)}
    (h : IPost B P r) (hq : ∀ S t, P t → IPost B Q (irun M code (S, t))) : IPost B Q (r.bind (irun M code)) := by
  cases r with
  | error e => exact h
  | ok s => exact hq s.1 s.2 h

theorem IPost.mono {B : Prop} {P Q : Tup → Prop} {r : Except Err (List Slot × Tup)}
    (h : IPost B P r) (hq : ∀ t, P t → Q t) : IPost B Q r := by
  cases r with
  | error e => exact h
  | ok s => exact hq _ h

theorem items_run {E : Env} (hre : E.re = E.like) {ctx : List RVal} (hlen : ctx.length ≤ 256) {B : Prop} {cols : List Col}
    (h64 : cols.length ≤ 64) : ∀ (its : List Item) (i : Nat) (c : ICS), i + its.length ≤ (visible cols).length →
      (∀ p < cols.length, (cols.getD p noCol).hidden = false → ∀ it, i ≤ vcount cols p →
        its[vcount cols p - i]? = some it → ItemOK E.like B cols p it) →
    ∃ code, (emitItems cols c i its).ops = c.ops ++ code ∧ c.ctx <+: (emitItems cols c i its).ctx ∧
      ((emitItems cols c i its).ctx <+: ctx → ∀ S t, IPost B (Eff E.like cols i its t) (irun (E.mach ctx) code (S, t))) := by
  intro its
  induction its with
  | nil =>
    intro i c _ _
    refine ⟨[], by simp [emitItems], List.prefix_rfl, fun _ S t => ?_⟩
    exact fun p _ => ⟨fun it _ _ h => by simp at h, fun _ => rfl⟩
  | cons it its ih =>
    intro i c hlen' hok
    simp only [List.length_cons] at hlen'
    obtain ⟨p, hp, hv, hpi⟩ := exists_pos (cols := cols) (j := i) (by omega)
    have hit : ItemOK E.like B cols p it := hok p hp hv it (by omega) (by rw [hpi]; simp)
    obtain ⟨c1, a1, a2, a3⟩ := item_run hre hlen hp h64 hv hit c
    rw [hpi] at a1 a2 a3
    obtain ⟨c2, b1, b2, b3⟩ := ih (i + 1) (emitItem cols c i it) (by omega) (by
      intro q hq hqv it' hle hget
      refine hok q hq hqv it' (by omega) ?_
      rw [show vcount cols q - i = (vcount cols q - (i + 1)) + 1 by omega]
      simpa using hget)
    refine ⟨c1 ++ c2, ?_, a2.trans b2, ?_⟩
    · rw [emitItems, b1, a1, List.append_assoc]
    · intro hpre S t
      rw [irun_append]
      refine (a3 (b2.trans hpre) S t).bind ?_
      intro S' t1 ⟨hrep, hoth⟩
      refine (b3 hpre S' t1).mono ?_
      intro t2 he q hq
      refine ⟨?_, ?_⟩
      · intro it' hqv hle hget
        by_cases hqp : q = p
        · subst hqp
          have h2 := (he q hq).2 (Or.inr (by omega))
          rw [h2]
          rw [hpi] at hget
          simp only [Nat.sub_self, List.getElem?_cons_zero, Option.some.injEq] at hget
          rw [← hget]; exact hrep
        · have hne : vcount cols q ≠ i := fun e => hqp (vcount_inj hq hp hqv hv (by rw [e, hpi]))
          have := (he q hq).1 it' hqv (by omega) (by
            rw [show vcount cols q - i = (vcount cols q - (i + 1)) + 1 by omega] at hget
            simpa using hget)
          rw [hoth q hqp] at this
          exact this
      · intro hh
        have h2 := (he q hq).2 (hh.imp_right (fun h => by omega))
        rw [h2]
        apply hoth
        rintro rfl
        rcases hh with h | h
        · rw [hv] at h; cases h
        · omega

/-- Filling a tuple. -/
theorem fill_run {E : Env} (hre : E.re = E.like) {B : Prop} {cols : List Col} (h64 : cols.length ≤ 64) {its : List Item}
    (hlen : its.length = (visible cols).length) (hctx : (emitItems cols ⟨[], []⟩ 0 its).ctx.length ≤ 256)
    (hok : ∀ p < cols.length, (cols.getD p noCol).hidden = false → ∀ it, its[vcount cols p]? = some it → ItemOK E.like B cols p it)
    (t : Tup) :
    match fillTuple E cols its t with
    | .error e => e = .overflow ∨ (e = .divZero ∧ B)
    | .ok t' => Eff E.like cols 0 its t t' := by
  obtain ⟨code, h1, _, h3⟩ := items_run hre hctx h64 its 0 ⟨[], []⟩ (by omega) (by
    intro p hp hv it _ h
    exact hok p hp hv it (by simpa using h))
  have := h3 List.prefix_rfl [] t
  simp only [List.nil_append] at h1
  rw [← h1] at this
  simp only [fillTuple, bind, pure]
  generalize irun (E.mach _) (emitItems cols ⟨[], []⟩ 0 its).ops ([], t) = r at this ⊢
  cases r with
  | error e => exact this
  | ok s => exact this

end Mutable.Ins
