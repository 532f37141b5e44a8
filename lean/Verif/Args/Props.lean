import Verif.Args.Spec
import Mathlib.Data.List.Perm.Basic
import Mathlib.Data.List.TakeWhile
import Mathlib.Tactic.Ring
import Mathlib.Tactic.SplitIfs
/-!
# C76: the parser of command lines
-/
namespace Mutable.Args
open Spec (names Named Line Number InRange)

/-! ## Registration -/

/-- All names of the options. -/
def allNames (os : List Opt) : List Str := os.flatMap names

/-- The map holds the names of the options. -/
def Keys (os : List Opt) (ks : List (Str × Opt)) : Prop := (∀ a o, find ks a = some o ↔ Named os a o)

theorem find_nil (a : Str) : find [] a = none := rfl

theorem find_cons (k : Str × Opt) (ks : List (Str × Opt)) (a : Str) : find (k :: ks) a = if k.1 = a then some k.2 else find ks a := by
  unfold find
  rw [List.find?_cons]
  split_ifs with h <;> simp [h]

theorem emplace_some {ks : List (Str × Opt)} {a : Str} {o : Opt} (h : find ks a = none) : emplace ks a o = some ((a, o) :: ks) := by
  unfold emplace; rw [h]

theorem emplace_none {ks : List (Str × Opt)} {a : Str} {o p : Opt} (h : find ks a = some p) : emplace ks a o = none := by
  unfold emplace; rw [h]

theorem find_isSome (ks : List (Str × Opt)) (a : Str) : (find ks a).isSome ↔ a ∈ ks.map (·.1) := by
  induction ks with
  | nil => simp [find_nil]
  | cons k ks ih =>
    rw [find_cons]
    split_ifs with h
    · simp [h]
    · simp [ih, Ne.symm h]

/-- What `add` does to the map, the lengths and the lists. -/
theorem add_spec (p : Parser) (o : Opt) :
    (((names o).Nodup ∧ ∀ a ∈ names o, find p.keys a = none) → ∃ q, add p o = some q ∧
      q.keys = ((names o).map fun a => (a, o)).reverse ++ p.keys ∧
      q.shortLen = max p.shortLen (o.short.getD []).length ∧ q.longLen = max p.longLen (o.long.getD []).length ∧
      q.general = (if o.group = none then p.general ++ [o] else p.general) ∧
      q.grouped = (match o.group with | none => p.grouped | some g => pushGroup g o p.grouped)) ∧
    (¬ ((names o).Nodup ∧ ∀ a ∈ names o, find p.keys a = none) → add p o = none) := by
  obtain ⟨id, g, s, l, d, t⟩ := o
  have hs : ∀ x : Option Opt, x = none ∨ ∃ p, x = some p := fun x => by cases x <;> simp
  cases s with
  | none =>
    cases l with
    | none => cases g <;> simp [names, add]
    | some l =>
      rcases hs (find p.keys l) with h | ⟨r, h⟩
      · cases g <;> simp [names, add, emplace, h]
      · cases g <;> simp [names, add, emplace, h]
  | some s =>
    cases l with
    | none =>
      rcases hs (find p.keys s) with h | ⟨r, h⟩
      · cases g <;> simp [names, add, emplace, h]
      · cases g <;> simp [names, add, emplace, h]
    | some l =>
      rcases hs (find p.keys s) with h | ⟨r, h⟩
      · rcases hs (find p.keys l) with h' | ⟨r, h'⟩
        · by_cases e : s = l
          · cases g <;> simp [names, add, emplace, h, h', find_cons, e]
          · cases g <;> simp [names, add, emplace, h, h', find_cons, e]
        · by_cases e : s = l
          · cases g <;> simp [names, add, emplace, h, h', find_cons, e]
          · cases g <;> simp [names, add, emplace, h, h', find_cons, e]
      · cases g <;> simp [names, add, emplace, h]

theorem pushGroup_perm (g : Str) (o : Opt) : ∀ l : List (Str × List Opt), ((pushGroup g o l).flatMap (·.2)).Perm (l.flatMap (·.2) ++ [o])
  | [] => by simp [pushGroup]
  | (h, os) :: r => by
    unfold pushGroup
    split_ifs with e
    · simp only [List.flatMap_cons, List.append_assoc]
      exact List.Perm.append_left _ List.perm_append_comm
    · simp only [List.flatMap_cons, List.append_assoc]
      exact List.Perm.append_left _ (pushGroup_perm g o r)

theorem pushGroup_group (g : Str) (o : Opt) (ho : o.group = some g) : ∀ l : List (Str × List Opt),
    (∀ x ∈ l, ∀ p ∈ x.2, p.group = some x.1) → ∀ x ∈ pushGroup g o l, ∀ p ∈ x.2, p.group = some x.1
  | [], _ => by simp [pushGroup, ho]
  | (h, os) :: r, hl => by
    unfold pushGroup
    split_ifs with e
    · subst e
      intro x hx p hp
      rcases List.mem_cons.1 hx with rfl | hx
      · rcases List.mem_append.1 hp with hp | hp
        · exact hl (h, os) (by simp) p hp
        · rw [List.mem_singleton.1 hp]; exact ho
      · exact hl x (by simp [hx]) p hp
    · intro x hx
      rcases List.mem_cons.1 hx with rfl | hx
      · exact hl _ (by simp)
      · exact pushGroup_group g o ho r (fun x hx => hl x (by simp [hx])) x hx

theorem pushGroup_names (g : Str) (o : Opt) : ∀ l : List (Str × List Opt), (l.map (·.1)).Nodup →
    ((pushGroup g o l).map (·.1)).Nodup ∧ ∀ x ∈ (pushGroup g o l).map (·.1), x = g ∨ x ∈ l.map (·.1)
  | [], _ => by simp [pushGroup]
  | (h, os) :: r, hn => by
    have hn' : h ∉ r.map (·.1) ∧ (r.map (·.1)).Nodup := by simpa using hn
    obtain ⟨i1, i2⟩ := pushGroup_names g o r hn'.2
    unfold pushGroup
    split_ifs with e
    · subst e
      exact ⟨hn, fun x hx => Or.inr hx⟩
    · refine ⟨?_, ?_⟩
      · rw [List.map_cons, List.nodup_cons]
        refine ⟨fun hm => ?_, i1⟩
        rcases i2 _ hm with h1 | h1
        · exact e h1
        · exact hn'.1 h1
      · intro x hx
        rcases List.mem_cons.1 hx with rfl | hx
        · exact Or.inr (by simp)
        · rcases i2 x hx with h1 | h1
          · exact Or.inl h1
          · exact Or.inr (List.mem_cons_of_mem _ h1)

/-- What holds after the options were added. -/
structure Inv (os : List Opt) (p : Parser) : Prop where
  names : ∀ a, a ∈ p.keys.map (·.1) ↔ a ∈ allNames os
  nodup : (allNames os).Nodup
  keys : ∀ a o, find p.keys a = some o → Named os a o
  short : ∀ o ∈ os, (o.short.getD []).length ≤ p.shortLen
  long : ∀ o ∈ os, (o.long.getD []).length ≤ p.longLen
  shortTight : p.shortLen = 0 ∨ ∃ o ∈ os, (o.short.getD []).length = p.shortLen
  longTight : p.longLen = 0 ∨ ∃ o ∈ os, (o.long.getD []).length = p.longLen
  lists : (p.general ++ p.grouped.flatMap (·.2)).Perm os
  general : ∀ o ∈ p.general, o.group = none
  grouped : ∀ x ∈ p.grouped, ∀ o ∈ x.2, o.group = some x.1
  groups : (p.grouped.map (·.1)).Nodup

theorem inv_init : Inv [] {} := ⟨by simp [allNames], by simp [allNames], by simp [find_nil], by simp, by simp, Or.inl rfl, Or.inl rfl, by simp, by simp, by simp, by simp⟩

theorem find_append (k l : List (Str × Opt)) (a : Str) : find (k ++ l) a = (find k a).or (find l a) := by
  unfold find
  rw [List.find?_append]
  cases k.find? _ <;> rfl

theorem inv_add {os : List Opt} {p q : Parser} {o : Opt} (h : Inv os p) (hq : add p o = some q) : Inv (os ++ [o]) q := by
  obtain ⟨h1, h2⟩ := add_spec p o
  by_cases hc : (Spec.names o).Nodup ∧ ∀ a ∈ Spec.names o, find p.keys a = none
  swap
  · rw [h2 hc] at hq; cases hq
  obtain ⟨q', e, k1, k2, k3, k4, k5⟩ := h1 hc
  rw [hq] at e
  cases e
  have hd : ∀ a ∈ Spec.names o, a ∉ allNames os := by
    intro a ha hm
    have := (find_isSome p.keys a).2 ((h.names a).2 hm)
    rw [hc.2 a ha] at this
    cases this
  refine ⟨?_, ?_, ?_, ?_, ?_, ?_, ?_, ?_, ?_, ?_, ?_⟩
  · intro a
    rw [k1]
    simp only [List.map_append, List.map_reverse, List.map_map, List.mem_append, List.mem_reverse, h.names a, allNames, List.flatMap_append]
    simp [Function.comp_def, or_comm]
  · unfold allNames
    rw [List.flatMap_append, List.nodup_append]
    refine ⟨h.nodup, by simpa using hc.1, ?_⟩
    intro a ha b hb e
    subst e
    exact hd a (by simpa using hb) ha
  · intro a r hr
    rw [k1, find_append] at hr
    rcases hf : find ((Spec.names o).map fun a => (a, o)).reverse a with _ | r'
    · rw [hf] at hr
      obtain ⟨m1, m2⟩ := h.keys a r hr
      exact ⟨by simp [m1], m2⟩
    · rw [hf] at hr
      cases hr
      unfold find at hf
      obtain ⟨x, hx, rfl⟩ := Option.map_eq_some_iff.1 hf
      have m1 := List.mem_of_find?_eq_some hx
      have m2 := List.find?_some hx
      simp only [List.mem_reverse, List.mem_map] at m1
      obtain ⟨b, hb, rfl⟩ := m1
      simp only [decide_eq_true_eq] at m2
      subst m2
      exact ⟨by simp, hb⟩
  · intro r hr
    rw [k2]
    rcases List.mem_append.1 hr with hr | hr
    · have := h.short r hr; omega
    · rw [List.mem_singleton.1 hr]; omega
  · intro r hr
    rw [k3]
    rcases List.mem_append.1 hr with hr | hr
    · have := h.long r hr; omega
    · rw [List.mem_singleton.1 hr]; omega
  · rw [k2]
    rcases le_total p.shortLen (o.short.getD []).length with hl | hl
    · exact Or.inr ⟨o, by simp, by omega⟩
    · rcases h.shortTight with ht | ⟨r, hr, ht⟩
      · left; omega
      · exact Or.inr ⟨r, by simp [hr], by omega⟩
  · rw [k3]
    rcases le_total p.longLen (o.long.getD []).length with hl | hl
    · exact Or.inr ⟨o, by simp, by omega⟩
    · rcases h.longTight with ht | ⟨r, hr, ht⟩
      · left; omega
      · exact Or.inr ⟨r, by simp [hr], by omega⟩
  · rw [k4, k5]
    cases hg : o.group with
    | none =>
      simp only [if_true, List.append_assoc]
      refine List.Perm.trans (List.Perm.append_left _ List.perm_append_comm) ?_
      rw [← List.append_assoc]
      exact h.lists.append_right _
    | some g =>
      simp only [reduceCtorEq, if_false]
      refine List.Perm.trans (List.Perm.append_left _ (pushGroup_perm g o _)) ?_
      rw [← List.append_assoc]
      exact h.lists.append_right _
  · intro r hr
    rw [k4] at hr
    split_ifs at hr with hg
    · rcases List.mem_append.1 hr with hr | hr
      · exact h.general r hr
      · rw [List.mem_singleton.1 hr]; exact hg
    · exact h.general r hr
  · rw [k5]
    cases hg : o.group with
    | none => exact h.grouped
    | some g => exact pushGroup_group g o hg _ h.grouped
  · rw [k5]
    cases hg : o.group with
    | none => exact h.groups
    | some g => exact (pushGroup_names g o _ h.groups).1

theorem inv_addAll : ∀ {os os' : List Opt} {p q : Parser}, Inv os p → addAll p os' = some q → Inv (os ++ os') q
  | os, [], p, q, h, e => by cases e; simpa using h
  | os, o :: os', p, q, h, e => by
    unfold addAll at e
    cases ha : add p o with
    | none => rw [ha] at e; cases e
    | some r =>
      rw [ha] at e
      have := inv_addAll (inv_add h ha) e
      simpa using this

theorem inv_of {os : List Opt} {p : Parser} (h : addAll {} os = some p) : Inv os p := by simpa using inv_addAll inv_init h

theorem inv_keys {os : List Opt} {p : Parser} (h : Inv os p) : Keys os p.keys := by
  intro a o
  refine ⟨h.keys a o, fun ho => ?_⟩
  have hm : a ∈ allNames os := List.mem_flatMap.2 ⟨o, ho.1, ho.2⟩
  have := (find_isSome p.keys a).2 ((h.names a).2 hm)
  obtain ⟨r, hr⟩ := Option.isSome_iff_exists.1 this
  have hn := h.keys a r hr
  have : r = o := by
    by_contra hne
    have hu : ∀ {os : List Opt}, (allNames os).Nodup → r ∈ os → o ∈ os → a ∈ names r → a ∈ names o → r = o := by
      clear * -
      intro os
      induction os with
      | nil => intro _ h; cases h
      | cons x os ih =>
        intro hnd hr ho h1 h2
        have hnd' : (names x ++ allNames os).Nodup := hnd
        rw [List.nodup_append] at hnd'
        rcases List.mem_cons.1 hr with e1 | m1
        · rcases List.mem_cons.1 ho with e2 | m2
          · rw [e1, e2]
          · subst e1
            exact absurd rfl (hnd'.2.2 a h1 a (List.mem_flatMap.2 ⟨o, m2, h2⟩))
        · rcases List.mem_cons.1 ho with e2 | m2
          · subst e2
            exact absurd rfl (hnd'.2.2 a h2 a (List.mem_flatMap.2 ⟨r, m1, h1⟩))
          · exact ih hnd'.2.1 m1 m2 h1 h2
    exact hne (hu h.nodup hn.1 ho.1 hn.2 ho.2)
  rw [hr, this]

/-- Options can be added, without failing the assertion, iff no name is used twice. -/
theorem C76_add (os : List Opt) : (∃ p, addAll {} os = some p) ↔ (allNames os).Nodup := by
  refine ⟨fun ⟨p, h⟩ => (inv_of h).nodup, fun h => ?_⟩
  suffices ∀ (os' os : List Opt) (p : Parser), Inv os p → (allNames (os ++ os')).Nodup → ∃ q, addAll p os' = some q from
    this os [] {} inv_init (by simpa using h)
  intro os'
  induction os' with
  | nil => intro os p _ _; exact ⟨p, rfl⟩
  | cons o os' ih =>
    intro os p hi hn
    have hn' : (allNames os ++ (names o ++ allNames os')).Nodup := by simpa [allNames] using hn
    rw [List.nodup_append] at hn'
    obtain ⟨_, hb, hc⟩ := hn'
    rw [List.nodup_append] at hb
    obtain ⟨q, hq, _⟩ := (add_spec p o).1 ⟨hb.1, fun a ha => by
      by_contra hne
      have h1 : (find p.keys a).isSome := by cases hf : find p.keys a; exact absurd hf hne; rfl
      have := (hi.names a).1 ((find_isSome p.keys a).1 h1)
      exact hc a this a (by simp [ha]) rfl⟩
    obtain ⟨r, hr⟩ := ih (os ++ [o]) q (inv_add hi hq) (by simpa using hn)
    exact ⟨r, by unfold addAll; rw [hq]; exact hr⟩

/-! ## Command lines -/

def Out.append (r : Out) (c : List (Nat × Value)) (q w : List Str) : Out := ⟨r.calls ++ c, r.pos ++ q, r.warn ++ w⟩

theorem dashes {a : Str} (h : a ≠ "--".toList) (h2 : a.take 2 = "--".toList) : ∃ t, t ≠ [] ∧ a = "--".toList ++ t := by
  refine ⟨a.drop 2, ?_, by rw [← h2, List.take_append_drop]⟩
  intro h3
  apply h
  rw [← List.take_append_drop 2 a, h2, h3]
  rfl

theorem find_none {os : List Opt} {ks : List (Str × Opt)} (hk : Keys os ks) {a : Str} (ha : ∀ o ∈ os, a ∉ names o) : find ks a = none := by
  cases hf : find ks a with
  | none => rfl
  | some o => have := (hk a o).1 hf; exact absurd this.2 (ha o this.1)

theorem not_named {os : List Opt} {ks : List (Str × Opt)} (hk : Keys os ks) {a : Str} (h : find ks a = none) : ∀ o ∈ os, a ∉ names o := by
  intro o ho ha
  rw [(hk a o).2 ⟨ho, ha⟩] at h
  cases h

/-- Reading a beginning of the command line that does not end the options. -/
theorem parse_prefix {os : List Opt} {ks : List (Str × Opt)} (hk : Keys os ks) {e : Bool} {as : List Str} {c q w} (h : Line os e as c q w) :
    e = false → ∀ r bs, parseArgs ks r (as ++ bs) = parseArgs ks (r.append c q w) bs := by
  intro he
  induction h with
  | done => intro r bs; simp [Out.append]
  | rest h => rw [he] at h; cases h
  | flag h1 h2 h3 _ ih =>
    intro r bs
    rw [List.cons_append, parseArgs, if_neg h1, (hk _ _).2 h2]
    simp only [h3, if_true]
    rw [ih]
    simp [Out.append]
  | option h1 h2 h3 h4 _ ih =>
    intro r bs
    rw [List.cons_append, parseArgs, if_neg h1, (hk _ _).2 h2]
    simp only [h3, if_false, h4, List.cons_append]
    rw [ih]
    simp [Out.append]
  | @unknown t as c q w h1 h2 _ ih =>
    intro r bs
    rw [List.cons_append, parseArgs, if_neg (by simpa using h1), find_none hk h2]
    simp only
    rw [if_pos (by simp), ih]
    simp [Out.append]
  | @positional a as c q w h1 h2 _ ih =>
    intro r bs
    have h3 : a ≠ "--".toList := by simpa using h2 []
    rw [List.cons_append, parseArgs, if_neg h3, find_none hk h1]
    simp only
    rw [if_neg (fun h => by obtain ⟨t, _, ht⟩ := dashes h3 h; exact h2 t ht), ih]
    simp [Out.append]

/-- The end of the options. -/
theorem line_split {os : List Opt} {e : Bool} {as : List Str} {c q w} (h : Line os e as c q w) :
    e = true → ∃ bs rest q1, as = bs ++ "--".toList :: rest ∧ q = q1 ++ rest ∧ Line os false bs c q1 w := by
  intro he
  induction h with
  | done h => rw [he] at h; cases h
  | @rest as h => exact ⟨[], as, [], rfl, rfl, .done rfl⟩
  | @flag a o as c q w h1 h2 h3 _ ih =>
    obtain ⟨bs, rest, q1, e1, e2, hl⟩ := ih
    exact ⟨a :: bs, rest, q1, by rw [e1]; rfl, e2, .flag h1 h2 h3 hl⟩
  | @option a b o v as c q w h1 h2 h3 h4 _ ih =>
    obtain ⟨bs, rest, q1, e1, e2, hl⟩ := ih
    exact ⟨a :: b :: bs, rest, q1, by rw [e1]; rfl, e2, .option h1 h2 h3 h4 hl⟩
  | @unknown t as c q w h1 h2 _ ih =>
    obtain ⟨bs, rest, q1, e1, e2, hl⟩ := ih
    exact ⟨_ :: bs, rest, q1, by rw [e1]; rfl, e2, .unknown h1 h2 hl⟩
  | @positional a as c q w h1 h2 _ ih =>
    obtain ⟨bs, rest, q1, e1, e2, hl⟩ := ih
    exact ⟨a :: bs, rest, a :: q1, by rw [e1]; rfl, by rw [e2]; rfl, .positional h1 h2 hl⟩

theorem parse_complete {os : List Opt} {ks : List (Str × Opt)} (hk : Keys os ks) {e : Bool} {as : List Str} {c q w} (h : Line os e as c q w) (r : Out) :
    parseArgs ks r as = (r.append c q w, none) := by
  cases e with
  | false =>
    have := parse_prefix hk h rfl r []
    rw [List.append_nil] at this
    rw [this, parseArgs]
  | true =>
    obtain ⟨bs, rest, q1, rfl, rfl, hl⟩ := line_split h rfl
    rw [parse_prefix hk hl rfl, parseArgs, if_pos rfl]
    simp [Out.append]

/-- What was read, and the option whose argument is missing or wrong. -/
def Fails (os : List Opt) (as : List Str) (c : List (Nat × Value)) (q w : List Str) (err : Err) : Prop :=
  ∃ bs a o, Line os false bs c q w ∧ a ≠ "--".toList ∧ Named os a o ∧ o.ty ≠ .bool ∧
    (as = bs ++ [a] ∧ err = .missing ∨ ∃ b rest, as = bs ++ a :: b :: rest ∧ parseValue o.ty b = .error err)

theorem Fails.cons {os : List Opt} {as bs : List Str} {c c1 q q1 w w1 err} (h : Fails os as c q w err)
    (hl : ∀ cs c q w, Line os false cs c q w → Line os false (bs ++ cs) (c1 ++ c) (q1 ++ q) (w1 ++ w)) :
    Fails os (bs ++ as) (c1 ++ c) (q1 ++ q) (w1 ++ w) err := by
  obtain ⟨cs, a, o, h1, h2, h3, h4, h5⟩ := h
  refine ⟨bs ++ cs, a, o, hl _ _ _ _ h1, h2, h3, h4, ?_⟩
  rcases h5 with ⟨rfl, h⟩ | ⟨b, rest, rfl, h⟩
  · exact Or.inl ⟨by simp, h⟩
  · exact Or.inr ⟨b, rest, by simp, h⟩

theorem parse_sound {os : List Opt} {ks : List (Str × Opt)} (hk : Keys os ks) : ∀ (n : Nat) (as : List Str), as.length ≤ n → ∀ r : Out, ∃ c q w,
    (parseArgs ks r as = (r.append c q w, none) ∧ ∃ e, Line os e as c q w) ∨
    ∃ err, parseArgs ks r as = (r.append c q w, some err) ∧ Fails os as c q w err := by
  intro n
  induction n with
  | zero =>
    intro as h r
    cases List.length_eq_zero_iff.1 (Nat.le_zero.1 h)
    exact ⟨[], [], [], Or.inl ⟨by simp [parseArgs, Out.append], false, .done rfl⟩⟩
  | succ n ih =>
    intro as h r
    cases as with
    | nil => exact ⟨[], [], [], Or.inl ⟨by simp [parseArgs, Out.append], false, .done rfl⟩⟩
    | cons a as =>
      have hlen : as.length ≤ n := by simpa using h
      by_cases h1 : a = "--".toList
      · subst h1
        exact ⟨[], as, [], Or.inl ⟨by rw [parseArgs, if_pos rfl]; simp [Out.append], true, .rest rfl⟩⟩
      cases hf : find ks a with
      | some o =>
        have hn := (hk a o).1 hf
        by_cases hb : o.ty = .bool
        · obtain ⟨c, q, w, hh⟩ := ih as hlen { r with calls := r.calls ++ [(o.id, .bool true)] }
          have e1 : parseArgs ks r (a :: as) = parseArgs ks { r with calls := r.calls ++ [(o.id, .bool true)] } as := by
            rw [parseArgs, if_neg h1, hf]; simp only [hb, if_true]
          have e2 : ({ r with calls := r.calls ++ [(o.id, .bool true)] } : Out).append c q w = r.append ((o.id, .bool true) :: c) q w := by simp [Out.append]
          refine ⟨(o.id, .bool true) :: c, q, w, ?_⟩
          rw [e1, ← e2]
          rcases hh with ⟨e, b, hl⟩ | ⟨err, e, hl⟩
          · exact Or.inl ⟨e, b, .flag h1 hn hb hl⟩
          · exact Or.inr ⟨err, e, hl.cons (bs := [a]) (c1 := [_]) (q1 := []) (w1 := []) fun _ _ _ _ h => .flag h1 hn hb h⟩
        · cases as with
          | nil =>
            refine ⟨[], [], [], Or.inr ⟨.missing, ?_, [], a, o, .done rfl, h1, hn, hb, Or.inl ⟨rfl, rfl⟩⟩⟩
            rw [parseArgs, if_neg h1, hf]; simp [hb, Out.append]
          | cons b as =>
            cases hv : parseValue o.ty b with
            | error err =>
              refine ⟨[], [], [], Or.inr ⟨err, ?_, [], a, o, .done rfl, h1, hn, hb, Or.inr ⟨b, as, rfl, hv⟩⟩⟩
              rw [parseArgs, if_neg h1, hf]; simp [hb, hv, Out.append]
            | ok v =>
              obtain ⟨c, q, w, hh⟩ := ih as (by simp only [List.length_cons] at hlen; omega) { r with calls := r.calls ++ [(o.id, v)] }
              have e1 : parseArgs ks r (a :: b :: as) = parseArgs ks { r with calls := r.calls ++ [(o.id, v)] } as := by
                rw [parseArgs, if_neg h1, hf]; simp only [hb, if_false, hv]
              have e2 : ({ r with calls := r.calls ++ [(o.id, v)] } : Out).append c q w = r.append ((o.id, v) :: c) q w := by simp [Out.append]
              refine ⟨(o.id, v) :: c, q, w, ?_⟩
              rw [e1, ← e2]
              rcases hh with ⟨e, b', hl⟩ | ⟨err, e, hl⟩
              · exact Or.inl ⟨e, b', .option h1 hn hb hv hl⟩
              · exact Or.inr ⟨err, e, hl.cons (bs := [a, b]) (c1 := [_]) (q1 := []) (w1 := []) fun _ _ _ _ h => .option h1 hn hb hv h⟩
      | none =>
        have hn := not_named hk hf
        by_cases h2 : a.take 2 = "--".toList
        · obtain ⟨c, q, w, hh⟩ := ih as hlen { r with warn := r.warn ++ [a] }
          have e1 : parseArgs ks r (a :: as) = parseArgs ks { r with warn := r.warn ++ [a] } as := by
            rw [parseArgs, if_neg h1, hf]; simp only; rw [if_pos h2]
          have e2 : ({ r with warn := r.warn ++ [a] } : Out).append c q w = r.append c q (a :: w) := by simp [Out.append]
          refine ⟨c, q, a :: w, ?_⟩
          rw [e1, ← e2]
          obtain ⟨t, ht, rfl⟩ := dashes h1 h2
          rcases hh with ⟨e, b, hl⟩ | ⟨err, e, hl⟩
          · exact Or.inl ⟨e, b, .unknown ht hn hl⟩
          · exact Or.inr ⟨err, e, hl.cons (bs := [_]) (c1 := []) (q1 := []) (w1 := [_]) fun _ _ _ _ h => .unknown ht hn h⟩
        · obtain ⟨c, q, w, hh⟩ := ih as hlen { r with pos := r.pos ++ [a] }
          have e1 : parseArgs ks r (a :: as) = parseArgs ks { r with pos := r.pos ++ [a] } as := by
            rw [parseArgs, if_neg h1, hf]; simp only; rw [if_neg h2]
          have e2 : ({ r with pos := r.pos ++ [a] } : Out).append c q w = r.append c (a :: q) w := by simp [Out.append]
          have h3 : ∀ t, a ≠ "--".toList ++ t := by rintro t rfl; exact h2 (by simp)
          refine ⟨c, a :: q, w, ?_⟩
          rw [e1, ← e2]
          rcases hh with ⟨e, b, hl⟩ | ⟨err, e, hl⟩
          · exact Or.inl ⟨e, b, .positional hn h3 hl⟩
          · exact Or.inr ⟨err, e, hl.cons (bs := [_]) (c1 := []) (q1 := [_]) (w1 := []) fun _ _ _ _ h => .positional hn h3 h⟩

/-- A command line is read without an error exactly if it is one of the grammar; the callbacks are called with the values in order,
the positional and the ignored arguments are collected in order. -/
theorem C76_parse {os : List Opt} {p : Parser} (h : addAll {} os = some p) (as : List Str) (c : List (Nat × Value)) (q w : List Str) :
    parseArgs p.keys {} as = (⟨c, q, w⟩, none) ↔ ∃ e, Line os e as c q w := by
  have hk := inv_keys (inv_of h)
  constructor
  · intro hp
    obtain ⟨c', q', w', h1 | ⟨err, h1, _⟩⟩ := parse_sound hk as.length as le_rfl {}
    · obtain ⟨h1, e, hl⟩ := h1
      rw [hp] at h1
      simp only [Out.append, List.nil_append, Prod.mk.injEq, Out.mk.injEq, and_true] at h1
      obtain ⟨rfl, rfl, rfl⟩ := h1
      exact ⟨e, hl⟩
    · rw [hp] at h1
      cases h1
  · rintro ⟨e, hl⟩
    rw [parse_complete hk hl]
    rfl

/-- Otherwise the process exits at an option whose argument is missing or cannot be read; everything before it has taken effect, nothing behind it has. -/
theorem C76_failure {os : List Opt} {p : Parser} (h : addAll {} os = some p) (as : List Str) {c : List (Nat × Value)} {q w : List Str} {err : Err}
    (hp : parseArgs p.keys {} as = (⟨c, q, w⟩, some err)) : Fails os as c q w err := by
  obtain ⟨c', q', w', h1 | ⟨err', h1, hf⟩⟩ := parse_sound (inv_keys (inv_of h)) as.length as le_rfl {}
  · rw [hp] at h1
    cases h1.1
  · rw [hp] at h1
    simp only [Out.append, List.nil_append, Prod.mk.injEq, Out.mk.injEq, Option.some.injEq] at h1
    obtain ⟨⟨rfl, rfl, rfl⟩, rfl⟩ := h1
    exact hf

/-- What a command line means is unique. -/
theorem C76_unambiguous {os : List Opt} (hn : (allNames os).Nodup) {as : List Str} {e e' c c' q q' w w'} (h : Line os e as c q w) (h' : Line os e' as c' q' w') :
    c = c' ∧ q = q' ∧ w = w' := by
  obtain ⟨p, hp⟩ := (C76_add os).2 hn
  have h1 := (C76_parse hp as c q w).2 ⟨e, h⟩
  rw [(C76_parse hp as c' q' w').2 ⟨e', h'⟩] at h1
  simp only [Prod.mk.injEq, Out.mk.injEq, and_true] at h1
  exact ⟨h1.1.symm, h1.2.1.symm, h1.2.2.symm⟩

/-- Every argument that is neither an option nor an argument of one is positional or ignored; none is lost: if no option has an argument, their numbers add up. -/
theorem C76_nothing_lost {os : List Opt} {e : Bool} {as : List Str} {c q w} (h : Line os e as c q w) (hb : ∀ o ∈ os, o.ty = .bool) :
    as.length = c.length + q.length + w.length + (if e then 1 else 0) := by
  induction h with
  | done h => simp [h]
  | rest h => simp [h]
  | flag h1 h2 h3 _ ih => simp only [List.length_cons, ih]; omega
  | option h1 h2 h3 h4 _ ih => exact absurd (hb _ h2.1) h3
  | unknown h1 h2 _ ih => simp only [List.length_cons, ih]; omega
  | positional h1 h2 _ ih => simp only [List.length_cons, ih]; omega

/-! ## Lists -/

/-- The texts, separated by commas. -/
def joined : List Str → Str
  | [] => []
  | [x] => x
  | x :: xs => x ++ ',' :: joined xs

theorem splitLoop_ne (cur t : Str) : splitLoop cur t ≠ [] := by
  induction t generalizing cur with
  | nil => simp [splitLoop]
  | cons c t ih => unfold splitLoop; split_ifs <;> simp [ih]

theorem splitLoop_spec (cur t : Str) (h : ',' ∉ cur) : joined (splitLoop cur t) = cur ++ t ∧ ∀ x ∈ splitLoop cur t, ',' ∉ x := by
  induction t generalizing cur with
  | nil => exact ⟨by simp [splitLoop, joined], by simpa [splitLoop] using h⟩
  | cons c t ih =>
    unfold splitLoop
    split_ifs with hc
    · obtain ⟨h1, h2⟩ := ih [] (by simp)
      subst hc
      refine ⟨?_, by intro x hx; rcases List.mem_cons.1 hx with rfl | hx; exacts [h, h2 x hx]⟩
      cases hl : splitLoop [] t with
      | nil => exact absurd hl (splitLoop_ne _ _)
      | cons y ys =>
        rw [hl] at h1
        show cur ++ ',' :: joined (y :: ys) = _
        rw [h1, List.nil_append]
    · obtain ⟨h1, h2⟩ := ih (cur ++ [c]) (by simpa [h] using fun h => hc h.symm)
      exact ⟨by rw [h1]; simp, h2⟩

/-- A list option is given the texts between the commas, also empty ones; the empty text is the empty list. -/
theorem C76_list (t : Str) : joined (parseList t) = t ∧ (∀ x ∈ parseList t, ',' ∉ x) ∧ (parseList t = [] ↔ t = []) := by
  unfold parseList
  split_ifs with h
  · subst h; simp [joined]
  · obtain ⟨h1, h2⟩ := splitLoop_spec [] t (by simp)
    exact ⟨by simpa using h1, h2, by simp [splitLoop_ne, h]⟩

/-- Every list of texts without commas, but the list of one empty text, can be given. -/
theorem C76_list_round_trip (l : List Str) (h : ∀ x ∈ l, ',' ∉ x) (h1 : l ≠ [[]]) : parseList (joined l) = l := by
  have hs : ∀ (x : Str) (cur t : Str), ',' ∉ x → splitLoop cur (x ++ t) = splitLoop (cur ++ x) t := by
    intro x
    induction x with
    | nil => intro cur t _; simp
    | cons c x ih =>
      intro cur t hx
      simp only [List.mem_cons, not_or] at hx
      rw [List.cons_append, splitLoop, if_neg (fun h => hx.1 h.symm), ih _ _ hx.2]
      simp
  have hj : ∀ l : List Str, l ≠ [] → (∀ x ∈ l, ',' ∉ x) → splitLoop [] (joined l) = l := by
    intro l
    induction l with
    | nil => intro h; exact absurd rfl h
    | cons x l ih =>
      intro _ hl
      cases l with
      | nil =>
        have := hs x [] [] (hl x (by simp))
        simpa [joined, splitLoop] using this
      | cons y l =>
        show splitLoop [] (x ++ ',' :: joined (y :: l)) = _
        rw [hs x [] _ (hl x (by simp)), splitLoop, if_pos rfl, ih (by simp) fun z hz => hl z (by simp [hz])]
        simp
  unfold parseList
  split_ifs with he
  · cases l with
    | nil => rfl
    | cons x l =>
      exfalso
      cases l with
      | nil => exact h1 (by rw [show x = [] from he])
      | cons y l =>
        have : joined (x :: y :: l) = x ++ ',' :: joined (y :: l) := rfl
        rw [this] at he
        simp at he
  · exact hj l (by rintro rfl; exact he rfl) h

/-! ## Numbers -/

theorem space_cases {c : Char} (h : isSpace c = true) : c ≠ '-' ∧ c ≠ '+' ∧ c.isDigit = false := by
  unfold isSpace at h
  simp only [Bool.or_eq_true, decide_eq_true_eq] at h
  rcases h with ((((h | h) | h) | h) | h) | h <;> subst h <;> decide

theorem digit_cases {c : Char} (h : c.isDigit = true) : c ≠ '-' ∧ c ≠ '+' ∧ isSpace c = false := by
  refine ⟨by rintro rfl; exact absurd h (by decide), by rintro rfl; exact absurd h (by decide), ?_⟩
  by_contra h1
  have := (space_cases (by simpa using h1)).2.2
  rw [h] at this
  cases this

theorem take_digits {ds rest : Str} (h : ∀ c ∈ ds, c.isDigit = true) (hr : ∀ c ∈ rest.head?, c.isDigit = false) :
    (ds ++ rest).takeWhile Char.isDigit = ds := by
  rw [List.takeWhile_append_of_pos h]
  cases rest with
  | nil => simp
  | cons c r => simp [List.takeWhile_cons, hr c rfl]

theorem drop_spaces {ws : Str} {c : Char} {r : Str} (h : ∀ c ∈ ws, isSpace c = true) (hc : isSpace c = false) :
    (ws ++ c :: r).dropWhile isSpace = c :: r := by
  rw [List.dropWhile_append_of_pos h, List.dropWhile_cons_of_neg (by simp [hc])]

theorem number_complete {t : Str} {v : Int} (h : Number t v) : ∃ neg m, number t = some (neg, m) ∧ v = if neg then -(m : Int) else m := by
  cases h with
  | @pos ws sg ds rest h1 h2 h3 h4 h5 =>
    refine ⟨false, _, ?_, rfl⟩
    obtain ⟨d, r, rfl⟩ := List.exists_cons_of_ne_nil h3
    obtain ⟨d1, d2, d3⟩ := digit_cases (h4 d (by simp))
    have e : sign ((ws ++ (sg ++ (d :: r ++ rest))).dropWhile isSpace) = (false, d :: r ++ rest) := by
      rcases h2 with rfl | rfl
      · rw [List.nil_append, List.cons_append, drop_spaces h1 d3]
        simp [sign, d1, d2]
      · rw [List.cons_append, drop_spaces h1 (by decide)]
        simp [sign]
    unfold number
    simp only [e, take_digits h4 h5, reduceCtorEq, if_false]
    rfl
  | @neg ws ds rest h1 h3 h4 h5 =>
    refine ⟨true, _, ?_, rfl⟩
    have e : sign ((ws ++ ('-' :: (ds ++ rest))).dropWhile isSpace) = (true, ds ++ rest) := by
      rw [drop_spaces h1 (by decide)]
      simp [sign]
    unfold number
    simp only [e, take_digits h4 h5, h3, if_false]
    rfl

theorem head_dropWhile {p : Char → Bool} {l : Str} : ∀ c ∈ (l.dropWhile p).head?, p c = false := by
  induction l with
  | nil => simp
  | cons a l ih =>
    by_cases h : p a = true
    · simpa [List.dropWhile_cons, h] using ih
    · simp [List.dropWhile_cons, h]

theorem number_sound {t : Str} {neg : Bool} {m : Nat} (h : number t = some (neg, m)) : Number t (if neg then -(m : Int) else m) := by
  unfold number at h
  simp only at h
  split_ifs at h with h0
  simp only [Option.some.injEq, Prod.mk.injEq] at h
  obtain ⟨rfl, rfl⟩ := h
  have ht : t.takeWhile isSpace ++ t.dropWhile isSpace = t := List.takeWhile_append_dropWhile
  have hw : ∀ c ∈ t.takeWhile isSpace, isSpace c = true := fun c hc => List.mem_takeWhile_imp hc
  generalize t.takeWhile isSpace = ws at ht hw
  generalize t.dropWhile isSpace = u at ht h0
  subst ht
  have hd : ∀ v : Str, v.takeWhile Char.isDigit ++ v.dropWhile Char.isDigit = v := fun v => List.takeWhile_append_dropWhile
  have hdd : ∀ v : Str, ∀ c ∈ v.takeWhile Char.isDigit, c.isDigit = true := fun v c hc => List.mem_takeWhile_imp hc
  cases u with
  | nil => exact absurd rfl h0
  | cons c v =>
    unfold sign at h0 ⊢
    by_cases h1 : c = '-'
    · subst h1
      simp only [if_true] at h0 ⊢
      have := Number.neg (ws := ws) hw h0 (hdd v) (rest := v.dropWhile Char.isDigit) head_dropWhile
      rw [hd v] at this
      exact this
    · simp only [h1, if_false] at h0 ⊢
      by_cases h2 : c = '+'
      · subst h2
        simp only [if_true] at h0 ⊢
        have := Number.pos (ws := ws) (sg := ['+']) hw (Or.inr rfl) h0 (hdd v) (rest := v.dropWhile Char.isDigit) head_dropWhile
        rw [hd v] at this
        exact this
      · simp only [h2, if_false] at h0 ⊢
        have := Number.pos (ws := ws) (sg := []) hw (Or.inl rfl) h0 (hdd (c :: v)) (rest := (c :: v).dropWhile Char.isDigit) head_dropWhile
        rw [hd (c :: v)] at this
        exact this

theorem number_none {t : Str} (h : number t = none) (v : Int) : ¬ Number t v := by
  intro hv
  obtain ⟨neg, m, e, _⟩ := number_complete hv
  rw [h] at e
  cases e

/-- A signed option accepts exactly the texts that start with a number in the range of the type, and its callback is given that number. -/
theorem C76_signed {ty : Ty} (hty : ty = .int ∨ ty = .long) (t : Str) (x : Value) :
    parseValue ty t = .ok x ↔ ∃ v, x = .int v ∧ Number t v ∧ InRange ty v := by
  have key : ∀ n : Nat, 0 < n → (parseSigned n t = .ok x ↔ ∃ v, x = .int v ∧ Number t v ∧ -2 ^ (n - 1) ≤ v ∧ v < 2 ^ (n - 1)) := by
    intro n hn
    unfold parseSigned
    cases h : number t with
    | none =>
      simp only [reduceCtorEq, false_iff]
      rintro ⟨v, _, hv, _⟩
      exact number_none h v hv
    | some r =>
      obtain ⟨neg, m⟩ := r
      have hs := number_sound h
      have hu : ∀ v, Number t v → v = if neg then -(m : Int) else m := by
        intro v hv
        obtain ⟨neg', m', e, rfl⟩ := number_complete hv
        rw [h] at e
        cases e
        rfl
      have hp : (0 : Int) < 2 ^ (n - 1) := by positivity
      cases neg with
      | true =>
        simp only [if_true] at hs hu ⊢
        split_ifs with hm
        · have hm' : (m : Int) ≤ 2 ^ (n - 1) := by exact_mod_cast hm
          constructor
          · intro e; cases e; exact ⟨_, rfl, hs, by omega, by omega⟩
          · rintro ⟨v, rfl, hv, _⟩; rw [hu v hv]
        · simp only [reduceCtorEq, false_iff]
          rintro ⟨v, rfl, hv, h1, _⟩
          rw [hu v hv] at h1
          have : (m : Int) ≤ 2 ^ (n - 1) := by omega
          exact hm (by exact_mod_cast this)
      | false =>
        simp only [Bool.false_eq_true, if_false] at hs hu ⊢
        split_ifs with hm
        · have hm' : (m : Int) < 2 ^ (n - 1) := by exact_mod_cast hm
          constructor
          · intro e; cases e; exact ⟨_, rfl, hs, by omega, by omega⟩
          · rintro ⟨v, rfl, hv, _⟩; rw [hu v hv]
        · simp only [reduceCtorEq, false_iff]
          rintro ⟨v, rfl, hv, _, h1⟩
          rw [hu v hv] at h1
          exact hm (by exact_mod_cast h1)
  rcases hty with rfl | rfl
  · exact key 32 (by omega)
  · exact key 64 (by omega)

/-- An unsigned option whose text starts with a number that is not negative accepts it exactly if it is in the range.
Partial: negative numbers (see `C76_bug_negative`). -/
theorem C76_unsigned_partial {ty : Ty} (hty : ty = .unsigned ∨ ty = .ulong) {t : Str} {v : Int} (h : Number t v) (h0 : 0 ≤ v) :
    (InRange ty v → parseValue ty t = .ok (.int v)) ∧ (¬ InRange ty v → parseValue ty t = .error .range) := by
  obtain ⟨neg, m, e, hv⟩ := number_complete h
  have hm : v = m := by cases neg <;> simp at hv <;> omega
  have hx : neg = true → m = 0 := by intro hn; rw [hn] at hv; simp at hv; omega
  have h64 : parseUnsigned64 t = if m < 2 ^ 64 then .ok m else .error .range := by
    unfold parseUnsigned64
    rw [e]
    simp only
    cases neg with
    | true => rw [hx rfl]; rfl
    | false => rfl
  subst hm
  rcases hty with rfl | rfl
  · simp only [parseValue, parseUnsigned32, h64, InRange]
    constructor
    · rintro ⟨_, h2⟩
      have h2 : m < 2 ^ 32 := by exact_mod_cast h2
      rw [if_pos (by omega)]
      simp only
      rw [if_neg (by omega)]
      rfl
    · intro h2
      have h2 : ¬ m < 2 ^ 32 := fun h => h2 ⟨by omega, by exact_mod_cast h⟩
      split_ifs
      · simp only
        rw [if_pos (by omega)]
        rfl
      · rfl
  · simp only [parseValue, h64, InRange]
    constructor
    · rintro ⟨_, h2⟩
      have h2 : m < 2 ^ 64 := by exact_mod_cast h2
      rw [if_pos h2]
      rfl
    · intro h2
      have h2 : ¬ m < 2 ^ 64 := fun h => h2 ⟨by omega, by exact_mod_cast h⟩
      rw [if_neg h2]
      rfl

/-- A text that does not start with a number is rejected. -/
theorem C76_not_a_number {ty : Ty} (hty : ty = .int ∨ ty = .long ∨ ty = .unsigned ∨ ty = .ulong) {t : Str} (h : ∀ v, ¬ Number t v) :
    parseValue ty t = .error .invalid := by
  have hn : number t = none := by
    cases e : number t with
    | none => rfl
    | some r => exact absurd (number_sound e) (h _)
  rcases hty with rfl | rfl | rfl | rfl <;> simp only [parseValue, parseSigned, parseUnsigned32, parseUnsigned64, hn] <;> rfl

/-- The decimal text of an integer. -/
def text (v : Int) : Str := if v < 0 then '-' :: Nat.toDigits 10 v.natAbs else Nat.toDigits 10 v.natAbs

theorem number_text (v : Int) : Number (text v) v := by
  have hd : ∀ n, ∀ c ∈ Nat.toDigits 10 n, c.isDigit = true := fun n c hc => Nat.isDigit_of_mem_toDigits (by decide) (by decide) hc
  have hne : ∀ n, Nat.toDigits 10 n ≠ [] := fun n => Nat.toDigits_ne_nil
  unfold text
  split_ifs with h
  · have := Number.neg (ws := []) (rest := []) (by simp) (hne v.natAbs) (hd _) (by simp)
    rw [Nat.ofDigitChars_ten_toDigits] at this
    have e : -((v.natAbs : Nat) : Int) = v := by omega
    rw [e] at this
    simpa using this
  · have := Number.pos (ws := []) (sg := []) (rest := []) (by simp) (Or.inl rfl) (hne v.natAbs) (hd _) (by simp)
    rw [Nat.ofDigitChars_ten_toDigits] at this
    have e : ((v.natAbs : Nat) : Int) = v := by omega
    rw [e] at this
    simpa using this

/-- Every number of the range of an option's type can be given by its decimal text. -/
theorem C76_number_round_trip {ty : Ty} {v : Int} (h : InRange ty v) : parseValue ty (text v) = .ok (.int v) := by
  cases ty with
  | int => exact (C76_signed (Or.inl rfl) _ _).2 ⟨v, rfl, number_text v, h⟩
  | long => exact (C76_signed (Or.inr rfl) _ _).2 ⟨v, rfl, number_text v, h⟩
  | unsigned => exact (C76_unsigned_partial (Or.inl rfl) (number_text v) h.1).1 h
  | ulong => exact (C76_unsigned_partial (Or.inr rfl) (number_text v) h.1).1 h
  | _ => exact absurd h (by simp [InRange])

/-! ## The help -/

/-- The help lists every option exactly once, under its group, in whatever order the hash table yields the groups; the names are in columns, which are just as wide as needed. -/
theorem C76_help {os : List Opt} {p : Parser} (h : addAll {} os = some p) {groups : List (Str × List Opt)} (hg : groups.Perm p.grouped) :
    ∃ (g : List Opt) (s l : Nat),
      printArgs p groups = "General:\n".toList ++ (g.map (Spec.row s l)).flatten ++
        (groups.map fun x => x.1 ++ ":\n".toList ++ (x.2.map (Spec.row s l)).flatten).flatten ∧
      (g ++ groups.flatMap (·.2)).Perm os ∧ (∀ o ∈ g, o.group = none) ∧ (∀ x ∈ groups, ∀ o ∈ x.2, o.group = some x.1) ∧ (groups.map (·.1)).Nodup ∧
      (∀ o ∈ os, (o.short.getD []).length ≤ s ∧ (o.long.getD []).length ≤ l) ∧
      (s = 0 ∨ ∃ o ∈ os, (o.short.getD []).length = s) ∧ (l = 0 ∨ ∃ o ∈ os, (o.long.getD []).length = l) := by
  have hi := inv_of h
  have hperm : (p.general ++ groups.flatMap (·.2)).Perm os := (List.Perm.append_left _ (hg.flatMap_right _)).trans hi.lists
  have hl : ∀ o ∈ os, line p o = Spec.row p.shortLen p.longLen o := by
    intro o ho
    have h1 := hi.short o ho
    have h2 := hi.long o ho
    have e1 : pad ((p.shortLen : Int) - ((o.short.getD []).length : Int)) = List.replicate (p.shortLen - (o.short.getD []).length) ' ' := by
      unfold pad; congr 1; omega
    have e2 : pad ((p.longLen : Int) - ((o.long.getD []).length : Int)) = List.replicate (p.longLen - (o.long.getD []).length) ' ' := by
      unfold pad; congr 1; omega
    unfold line Spec.row
    simp only [e1, e2, List.rightpad, List.append_assoc]
  refine ⟨p.general, p.shortLen, p.longLen, ?_, hperm, hi.general, fun x hx => hi.grouped x (hg.subset hx), (hg.map _).nodup_iff.2 hi.groups,
    fun o ho => ⟨hi.short o ho, hi.long o ho⟩, hi.shortTight, hi.longTight⟩
  unfold printArgs
  have e1 : p.general.map (line p) = p.general.map (Spec.row p.shortLen p.longLen) :=
    List.map_congr_left fun o ho => hl o (hperm.subset (List.mem_append_left _ ho))
  have e2 : (groups.map fun g => g.1 ++ ":\n".toList ++ (g.2.map (line p)).flatten) =
      groups.map fun g => g.1 ++ ":\n".toList ++ (g.2.map (Spec.row p.shortLen p.longLen)).flatten :=
    List.map_congr_left fun x hx => by
      rw [List.map_congr_left fun o ho => hl o (hperm.subset (List.mem_append_right _ (List.mem_flatMap.2 ⟨x, hx, ho⟩)))]
  rw [e1, e2]

/-! ## Defects -/

/-- Whatever follows the digits is ignored: `12abc` is 12, `1e9` is 1. -/
theorem C76_bug_trailing : parseValue .int "12abc".toList = .ok (.int 12) ∧ parseValue .ulong "1e9".toList = .ok (.int 1) := by
  constructor <;> decide +kernel

/-- Unsigned options accept negative numbers: `-1` is 2^64 - 1, and as 32 bits `-18446744073709551615` is 1. -/
theorem C76_bug_negative : parseValue .ulong "-1".toList = .ok (.int (2 ^ 64 - 1)) ∧ parseValue .unsigned "-18446744073709551615".toList = .ok (.int 1) := by
  constructor <;> decide +kernel

/-- Unknown short options are positional arguments, without a warning. -/
theorem C76_bug_unknown_short : parseArgs [] {} ["-x".toList] = (⟨[], ["-x".toList], []⟩, none) := by decide +kernel

/-- The argument of an unknown option is not ignored, but becomes a positional argument. -/
theorem C76_bug_unknown_argument : parseArgs [] {} ["--level".toList, "3".toList] = (⟨[], ["3".toList], ["--level".toList]⟩, none) := by decide +kernel

/-! ## Witnesses -/

def demo : List Opt :=
  [⟨0, none, some "-h".toList, some "--help".toList, "prints help".toList, .bool⟩,
   ⟨1, some "WASM".toList, none, some "--wasm-opt".toList, "level".toList, .int⟩,
   ⟨2, some "WASM".toList, none, some "--list".toList, "files".toList, .list⟩]

example : (allNames demo).Nodup := by decide +kernel

example : (addAll {} demo).map (fun p => parseArgs p.keys {}
      ["-h".toList, "a".toList, "--wasm-opt".toList, "-7".toList, "--foo".toList, "--list".toList, "x,,y".toList, "--".toList, "-h".toList]) =
    some (⟨[(0, .bool true), (1, .int (-7)), (2, .list ["x".toList, [], "y".toList])], ["a".toList, "-h".toList], ["--foo".toList]⟩, none) := by
  decide +kernel

example : (addAll {} demo).map (fun p => parseArgs p.keys {} ["-h".toList, "--wasm-opt".toList]) = some (⟨[(0, .bool true)], [], []⟩, some .missing) := by
  decide +kernel

example : (addAll {} demo).map (fun p => (printArgs p p.grouped)) = some
    "General:\n    -h  --help        -    prints help\nWASM:\n        --wasm-opt    -    level\n        --list        -    files\n".toList := by
  decide +kernel

example : addAll {} (demo ++ [⟨3, none, some "-h".toList, none, [], .bool⟩]) = none := rfl

example : InRange .int (-2147483648) ∧ parseValue .int (text (-2147483648)) = .ok (.int (-2147483648)) := by
  have h : InRange .int (-2147483648) := by simp [InRange]
  exact ⟨h, C76_number_round_trip h⟩

end Mutable.Args
