import Verif.WasmHash.Hash

/-! # Keys: what a stored key and a given key mean, and what hashing and comparing them depends on -/

namespace Mutable.WHash
open WStr

/-! ## Specification -/

/-- A column of the key: may it be NULL, its type for hashing, is it a `VARCHAR`. -/
structure Col where
  nullable : Bool
  ty : KTy
  varying : Bool

/-- The value belongs to the column.  A primitive value that cannot be NULL is not NULL. -/
def Val.Typed (c : Col) : Val → Prop
  | .prim n isNull _ => (∃ b, c.ty = .prim b) ∧ n = c.nullable ∧ (n = false → isNull = false)
  | .str none => (∃ l, c.ty = .str l) ∧ c.nullable = true
  | .str (some s) => c.ty = .str s.length ∧ s.varying = c.varying ∧ s.WF

/-- The memory belongs to the column. -/
def Cell.Typed (c : Col) : Cell → Prop
  | .prim nb _ => (∃ b, c.ty = .prim b) ∧ nb.isSome = c.nullable
  | .str nb buf => c.ty = .str buf.length ∧ buf.varying = c.varying ∧ nb.isSome = c.nullable

/-- What a value denotes; `none` is NULL. -/
inductive Datum where
  | prim (v : Prim)
  | str (s : List Int)

def Val.den : Val → Option Datum
  | .prim _ isNull v => if isNull then none else some (.prim v)
  | .str s => s.map fun s => .str s.val

/-- What a stored component denotes. -/
def Cell.den : Cell → Option Datum
  | .prim nb v => if nb = some true then none else some (.prim v)
  | .str nb buf => if nb = some true then none else some (.str buf.val)

/-- SQL's "is not distinct from": equal, or both NULL. -/
def notDistinct : Option Datum → Option Datum → Prop
  | none, none => True
  | some (.prim a), some (.prim b) => a.eq b = true
  | some (.str a), some (.str b) => a = b
  | _, _ => False

/-- Not the negative zero. -/
def Prim.Canon : Prim → Prop
  | .f32 b => b ≠ 0x80000000#32
  | .f64 b => b ≠ 0x8000000000000000#64
  | _ => True

/-- Not NaN. -/
def Prim.NotNaN : Prim → Prop
  | .f32 b => isNaN 8 23 b.toNat = false
  | .f64 b => isNaN 11 52 b.toNat = false
  | _ => True

/-- The values on which the hash depends on nothing but what they denote: no negative zero, and short strings are padded with NUL
bytes. -/
def Val.Canon : Val → Prop
  | .prim _ isNull v => isNull = false → v.Canon
  | .str none => True
  | .str (some s) => s.length ≤ 8 → Padded s

def Val.NotNaN : Val → Prop
  | .prim _ isNull v => isNull = false → v.NotNaN
  | .str _ => True

/-! ## Floats -/

theorem ieeeEq_self {e f x : Nat} (h : isNaN e f x = false) : ieeeEq e f x x = true := by simp [ieeeEq, h]

theorem ieeeEq_symm {e f x y : Nat} (h : ieeeEq e f x y = true) : ieeeEq e f y x = true := by
  simp only [ieeeEq, Bool.and_eq_true, Bool.or_eq_true, beq_iff_eq, Bool.not_eq_true'] at *
  obtain ⟨⟨a, b⟩, c⟩ := h
  refine ⟨⟨b, a⟩, ?_⟩
  rcases c with rfl | ⟨c, d⟩
  · exact Or.inl rfl
  · exact Or.inr ⟨d, c⟩

theorem ieeeEq_trans {e f x y z : Nat} (h : ieeeEq e f x y = true) (h' : ieeeEq e f y z = true) : ieeeEq e f x z = true := by
  simp only [ieeeEq, Bool.and_eq_true, Bool.or_eq_true, beq_iff_eq, Bool.not_eq_true'] at *
  obtain ⟨⟨a, b⟩, c⟩ := h
  obtain ⟨⟨a', b'⟩, c'⟩ := h'
  refine ⟨⟨a, b'⟩, ?_⟩
  rcases c with rfl | ⟨c, d⟩
  · exact c'
  · rcases c' with rfl | ⟨c', d'⟩
    · exact Or.inr ⟨c, d⟩
    · exact Or.inr ⟨c, d'⟩

theorem Prim.eq_refl {v : Prim} (h : v.NotNaN) : v.eq v = true := by
  cases v with
  | bool b => simp [Prim.eq]
  | int w x => simp [Prim.eq]
  | f32 b => exact ieeeEq_self h
  | f64 b => exact ieeeEq_self h

theorem Prim.eq_symm {a b : Prim} (h : a.eq b = true) : b.eq a = true := by
  cases a <;> cases b <;> simp only [Prim.eq, Bool.false_eq_true, Bool.and_eq_true, beq_iff_eq] at h ⊢
  · exact h.symm
  · exact ⟨h.1.symm, h.2.symm⟩
  · exact ieeeEq_symm h
  · exact ieeeEq_symm h

theorem Prim.eq_trans {a b c : Prim} (h : a.eq b = true) (h' : b.eq c = true) : a.eq c = true := by
  cases a <;> cases b <;> simp only [Prim.eq, Bool.false_eq_true] at h <;> cases c <;>
    simp only [Prim.eq, Bool.false_eq_true, Bool.and_eq_true, beq_iff_eq] at h h' ⊢
  · rw [h, h']
  · exact ⟨h.1.trans h'.1, h.2.trans h'.2⟩
  · exact ieeeEq_trans h h'
  · exact ieeeEq_trans h h'

theorem Prim.toU64_eq {a b : Prim} (ha : a.Canon) (hb : b.Canon) (h : a.eq b = true) : a.toU64 = b.toU64 := by
  cases a <;> cases b <;>
    simp only [Prim.eq, Bool.false_eq_true, Bool.and_eq_true, beq_iff_eq] at h
  · rw [h]
  · rw [h.1, h.2]
  · rename_i a b
    simp only [ieeeEq, Bool.and_eq_true, Bool.or_eq_true, beq_iff_eq, isZero] at h
    have : a = b := by
      rcases h.2 with h | ⟨h1, h2⟩
      · exact BitVec.eq_of_toNat_eq h
      · have e1 := a.isLt
        have e2 := b.isLt
        have c1 : a.toNat ≠ 0x80000000 := fun e => ha (BitVec.eq_of_toNat_eq e)
        have c2 : b.toNat ≠ 0x80000000 := fun e => hb (BitVec.eq_of_toNat_eq e)
        apply BitVec.eq_of_toNat_eq
        norm_num at h1 h2 e1 e2
        omega
    rw [this]
  · rename_i a b
    simp only [ieeeEq, Bool.and_eq_true, Bool.or_eq_true, beq_iff_eq, isZero] at h
    have : a = b := by
      rcases h.2 with h | ⟨h1, h2⟩
      · exact BitVec.eq_of_toNat_eq h
      · have e1 := a.isLt
        have e2 := b.isLt
        have c1 : a.toNat ≠ 0x8000000000000000 := fun e => ha (BitVec.eq_of_toNat_eq e)
        have c2 : b.toNat ≠ 0x8000000000000000 := fun e => hb (BitVec.eq_of_toNat_eq e)
        apply BitVec.eq_of_toNat_eq
        norm_num at h1 h2 e1 e2
        omega
    rw [this]

/-! ## Loading -/

theorem Cell.load_den (c : Cell) : c.load.den = c.den := by
  rcases c with ⟨_ | _ | _, v⟩ | ⟨_ | _ | _, b⟩ <;> simp [Cell.load, Cell.den, Val.den]

/-! ## Comparison -/

/-- The fuel suffices for the strings of a column. -/
def Col.fuelOk (fuel : Nat) (c : Col) : Prop := 2 * c.ty.len + 3 ≤ fuel

theorem Cell.eq_iff {c : Col} {fuel : Nat} (cache : Cache) (hf : c.fuelOk fuel) {cell : Cell} {v : Val} (hc : cell.Typed c) (hv : v.Typed c) :
    cell.eq fuel cache v = true ↔ notDistinct cell.den v.den := by
  unfold Col.fuelOk at hf
  rcases cell with ⟨nb, p⟩ | ⟨nb, buf⟩
  · rcases v with ⟨n, isN, q⟩ | s
    · rcases nb with _ | b
      · cases isN <;> simp [Cell.eq, Cell.den, Val.den, notDistinct]
      · cases b <;> cases isN <;> simp [Cell.eq, Cell.den, Val.den, notDistinct]
    · obtain ⟨⟨b, hb⟩, -⟩ := hc
      exfalso
      rcases s with _ | s
      · obtain ⟨⟨l, hl⟩, -⟩ := hv
        rw [hb] at hl; cases hl
      · have := hv.1
        rw [hb] at this; cases this
  · rcases v with ⟨n, isN, q⟩ | s
    · obtain ⟨⟨b, hb⟩, -⟩ := hv
      have := hc.1
      rw [hb] at this; cases this
    · obtain ⟨h1, h2, h3⟩ := hc
      rcases s with _ | s
      · rcases nb with _ | b
        · simp [Cell.eq, Cell.den, Val.den, notDistinct]
        · cases b <;> simp [Cell.eq, Cell.den, Val.den, notDistinct]
      · obtain ⟨g1, g2, g3⟩ := hv
        have hl : buf.length = s.length := by rw [h1] at g1; exact KTy.str.inj g1
        rw [h1] at hf
        have e := strncmp_eq cache buf s hl fuel (by show _ ≤ _; simp only [KTy.len] at hf; omega)
        rcases nb with _ | b
        · simp only [Cell.eq, e, Cell.den, Val.den]
          simp [notDistinct]
        · cases b <;> simp only [Cell.eq, e, Cell.den, Val.den] <;> simp [notDistinct]

/-! ## Hashing one component -/

theorem comp_hash {c : Col} {a b : Val} (ha : a.Typed c) (hb : b.Typed c) (ca : a.Canon) (cb : b.Canon) (h : notDistinct a.den b.den) :
    (∀ g, murmurOne g (c.ty, a) = murmurOne g (c.ty, b)) ∧ hashKey [(c.ty, a)] = hashKey [(c.ty, b)] ∧
      (c.ty.bits ≤ 64 → ∀ g, packOne g (c.ty, a) = packOne g (c.ty, b)) := by
  rcases a with ⟨n, isN, v⟩ | s
  · rcases b with ⟨n', isN', v'⟩ | s'
    · have e1 := ha.2.1.trans hb.2.1.symm
      have w := ha.2.2
      have w' := hb.2.2
      subst e1
      cases isN <;> cases isN' <;> simp only [Val.den, if_true, Bool.false_eq_true, if_false, notDistinct] at h
      · have e := Prim.toU64_eq (ca rfl) (cb rfl) h
        simp only [murmurOne, hashKey, packOne, exprHash, e, implies_true, and_self]
      · cases n
        · cases w rfl
        · refine ⟨fun g => rfl, rfl, fun _ g => ?_⟩
          simp only [packOne, if_true]
          rw [show (BitVec.allOnes 64 + 1 : U64) = 0#64 from by decide +kernel, BitVec.zero_and, BitVec.zero_and]
    · exfalso
      obtain ⟨⟨x, hx⟩, -⟩ := ha
      rcases s' with _ | s'
      · obtain ⟨⟨l, hl⟩, -⟩ := hb
        rw [hx] at hl; cases hl
      · have := hb.1
        rw [hx] at this; cases this
  · rcases b with ⟨n', isN', v'⟩ | s'
    · exfalso
      obtain ⟨⟨x, hx⟩, -⟩ := hb
      rcases s with _ | s'
      · obtain ⟨⟨l, hl⟩, -⟩ := ha
        rw [hx] at hl; cases hl
      · have := ha.1
        rw [hx] at this; cases this
    · rcases s with _ | s <;> rcases s' with _ | s' <;> simp only [Val.den, Option.map_none, Option.map_some, notDistinct] at h
      · exact ⟨fun _ => rfl, rfl, fun _ _ => rfl⟩
      · obtain ⟨a1, a2, a3⟩ := ha
        obtain ⟨b1, b2, b3⟩ := hb
        have hl : s.length = s'.length := by rw [a1] at b1; exact KTy.str.inj b1
        have e := strHash_eq hl h (fun h8 => ⟨ca h8, cb (by omega)⟩)
        rw [a1]
        refine ⟨fun g => ?_, e, fun h64 g => ?_⟩
        · show _ ^^^ strHash s.length _ = _ ^^^ strHash s.length _
          rw [e]
        · show packStr s.mem s.length 0 g = packStr s'.mem s.length 0 g
          have h8 : s.length ≤ 8 := by simp only [KTy.bits] at h64; omega
          exact packStr_congr _ _ _ fun j _ hj => padded_eq hl h (ca h8) (cb (by omega)) j (by omega)

/-! ## Hashing a key -/

/-- The arguments of `murmur3_64a_hash`: the types of the key columns and the values. -/
def withTypes (cols : List Col) (vs : List Val) : List (KTy × Val) := (cols.map (·.ty)).zip vs

/-- All components in order satisfy the property. -/
def Each2 {α β : Type} (P : α → β → Prop) : List α → List β → Prop
  | [], [] => True
  | a :: as, b :: bs => P a b ∧ Each2 P as bs
  | _, _ => False

theorem Each2.length {α β : Type} {P : α → β → Prop} : ∀ {as : List α} {bs : List β}, Each2 P as bs → as.length = bs.length
  | [], [], _ => rfl
  | a :: as, b :: bs, h => by rw [List.length_cons, List.length_cons, Each2.length h.2]
  | [], b :: bs, h => h.elim
  | a :: as, [], h => h.elim

def sameKey : List Val → List Val → Prop := Each2 fun a b => notDistinct a.den b.den

theorem foldl_hash (f : U64 → KTy × Val → U64) : ∀ (cols : List Col) (as bs : List Val) (g : U64),
    Each2 (fun c v => Val.Typed c v) cols as → Each2 (fun c v => Val.Typed c v) cols bs → (∀ v ∈ as, v.Canon) → (∀ v ∈ bs, v.Canon) → sameKey as bs →
    (∀ c ∈ cols, ∀ a b : Val, a.Typed c → b.Typed c → a.Canon → b.Canon → notDistinct a.den b.den → ∀ g, f g (c.ty, a) = f g (c.ty, b)) →
    (withTypes cols as).foldl f g = (withTypes cols bs).foldl f g
  | [], _, _, _, _, _, _, _, _, _ => rfl
  | c :: cols, [], _, _, h, _, _, _, _, _ => h.elim
  | c :: cols, a :: as, [], _, _, h, _, _, _, _ => h.elim
  | c :: cols, a :: as, b :: bs, g, ha, hb, ca, cb, hs, hf => by
    show (withTypes cols as).foldl f (f g (c.ty, a)) = (withTypes cols bs).foldl f (f g (c.ty, b))
    rw [hf c List.mem_cons_self a b ha.1 hb.1 (ca a List.mem_cons_self) (cb b List.mem_cons_self) hs.1 g]
    exact foldl_hash f cols as bs _ ha.2 hb.2 (fun v h => ca v (List.mem_cons_of_mem _ h)) (fun v h => cb v (List.mem_cons_of_mem _ h)) hs.2
      fun c h => hf c (List.mem_cons_of_mem _ h)

theorem withTypes_fst : ∀ {cols : List Col} {vs : List Val}, Each2 (fun c v => Val.Typed c v) cols vs →
    (withTypes cols vs).map (fun p => p.1.bits) = cols.map (fun c => c.ty.bits)
  | [], [], _ => rfl
  | c :: cols, v :: vs, h => by
    show _ :: (withTypes cols vs).map _ = _
    rw [withTypes_fst h.2]; rfl
  | [], _ :: _, h => h.elim
  | _ :: _, [], h => h.elim

theorem withTypes_length {cols : List Col} {vs : List Val} (h : Each2 (fun c v => Val.Typed c v) cols vs) :
    (withTypes cols vs).length = cols.length := by
  have := congrArg List.length (withTypes_fst h)
  simpa using this

theorem mem_sum_le {l : List Nat} {x : Nat} (h : x ∈ l) : x ≤ l.sum := by
  induction l with
  | nil => cases h
  | cons a l ih =>
    rw [List.sum_cons]
    rcases List.mem_cons.1 h with rfl | h
    · omega
    · have := ih h; omega

theorem hashKey_eq {cols : List Col} {as bs : List Val}
    (ha : Each2 (fun c v => Val.Typed c v) cols as) (hb : Each2 (fun c v => Val.Typed c v) cols bs)
    (ca : ∀ v ∈ as, v.Canon) (cb : ∀ v ∈ bs, v.Canon) (hs : sameKey as bs) :
    hashKey (withTypes cols as) = hashKey (withTypes cols bs) := by
  by_cases h1 : cols.length = 1
  · obtain ⟨c, rfl⟩ := List.length_eq_one_iff.1 h1
    have la := ha.length
    have lb := hb.length
    obtain ⟨a, rfl⟩ := List.length_eq_one_iff.1 la.symm
    obtain ⟨b, rfl⟩ := List.length_eq_one_iff.1 lb.symm
    exact (comp_hash ha.1 hb.1 (ca a (by simp)) (cb b (by simp)) hs.1).2.1
  · have gen : ∀ l : List (KTy × Val), l.length ≠ 1 → hashKey l =
        if (l.map fun p => p.1.bits).sum ≤ 64 then bitMix (l.foldl packOne 0)
        else bitMix (l.foldl murmurOne (BitVec.ofNat 64 l.length * 0xc6a4a7935bd1e995#64) ^^^ BitVec.ofNat 64 l.length) := by
      intro l hl
      unfold hashKey
      split
      · exact absurd rfl hl
      · exact absurd rfl hl
      · rfl
    rw [gen _ (by rw [withTypes_length ha]; exact h1), gen _ (by rw [withTypes_length hb]; exact h1),
      withTypes_fst ha, withTypes_fst hb, withTypes_length ha, withTypes_length hb]
    by_cases h64 : (cols.map fun c => c.ty.bits).sum ≤ 64
    · rw [if_pos h64, if_pos h64, foldl_hash packOne cols as bs 0 ha hb ca cb hs]
      intro c hc a b ta tb xa xb hab
      refine (comp_hash ta tb xa xb hab).2.2 ?_
      exact (mem_sum_le (List.mem_map.2 ⟨c, hc, rfl⟩)).trans h64
    · rw [if_neg h64, if_neg h64, foldl_hash murmurOne cols as bs _ ha hb ca cb hs]
      intro c _ a b ta tb xa xb hab
      exact (comp_hash ta tb xa xb hab).1

/-! ## Storing -/

/-- The string written into the buffer of an entry. -/
theorem store_str {buf s : NChar} (hl : buf.length = s.length) (hv : buf.varying = s.varying) (hw : s.WF) {fuel : Nat} (hf : s.length + 3 ≤ fuel) :
    ∃ m d, strncpy fuel buf.mem 0 s.mem s.size = some (m, d) ∧ NChar.val { buf with mem := m } = s.val ∧
      NChar.WF { buf with mem := m } ∧ (∀ i, s.val.length < i → m i = buf.mem i) ∧ (s.val.length < s.length → m s.val.length = 0) := by
  have hsz : s.size ≤ s.length + 1 ∧ s.length ≤ s.size := by unfold NChar.size; split <;> omega
  obtain ⟨d, hd⟩ := strncpy_full fuel buf.mem { s with length := s.size } (by show s.size + 2 ≤ fuel; omega)
  have hval : NChar.val { s with length := s.size } = s.val := by
    have a := val_len s
    refine val_unique _ _ (val_noNul s) (by show _ ≤ s.size; omega) (fun i h => ((val_get s h).1).symm) ?_
    by_cases hvar : s.varying = true
    · right; exact val_lt_of_wf hw hvar
    · have hz : s.size = s.length := by unfold NChar.size; rw [if_neg hvar]
      rcases val_end s with h | h
      · left; show _ = s.size; omega
      · right; exact h
  rw [hval] at hd
  have a := val_len s
  refine ⟨_, d, hd, ?_, ?_, ?_, ?_⟩
  · refine val_unique _ _ (val_noNul s) (by show _ ≤ buf.length; omega) (fun i h => ?_) ?_
    · show (if i < s.val.length then _ else _) = _
      rw [if_pos h, (val_get s h).1]
    · by_cases h : s.val.length = s.length
      · left; show _ = buf.length; omega
      · right
        show (if _ then _ else _) = _
        rw [if_neg (by omega), if_pos ⟨rfl, by show _ < s.size; omega⟩]
  · intro hb
    have hvar : s.varying = true := by rw [← hv]; exact hb
    have hz : s.size = s.length + 1 := by unfold NChar.size; rw [if_pos hvar]
    refine ⟨s.val.length, by show _ ≤ buf.length; omega, ?_⟩
    show (if _ then _ else _) = _
    rw [if_neg (by omega), if_pos ⟨rfl, by show _ < s.size; omega⟩]
  · intro i hi
    show (if _ then _ else _) = _
    rw [if_neg (by omega), if_neg (by omega)]
  · intro h
    show (if _ then _ else _) = _
    rw [if_neg (by omega), if_pos ⟨rfl, by show _ < s.size; omega⟩]

/-- The memory for short strings is NUL. -/
def Cell.Zeroed : Cell → Prop
  | .prim _ _ => True
  | .str _ buf => buf.length ≤ 8 → ∀ i, i < buf.length → buf.mem i = 0

theorem Cell.store_spec {c : Col} {fuel : Nat} (hf : c.fuelOk fuel) {cell : Cell} {v : Val} (hc : cell.Typed c) (hv : v.Typed c) :
    ∃ cell', cell.store fuel v = some cell' ∧ cell'.Typed c ∧ cell'.load.Typed c ∧ cell'.den = v.den ∧
      (v.NotNaN → cell'.load.NotNaN) ∧
      (cell.Zeroed → v.Canon → cell'.load.Canon) := by
  unfold Col.fuelOk at hf
  rcases cell with ⟨nb, p⟩ | ⟨nb, buf⟩
  · rcases v with ⟨n, isN, q⟩ | s
    · obtain ⟨c1, c2⟩ := hc
      obtain ⟨v1, v2, v3⟩ := hv
      rcases nb with _ | b
      · have : n = false := by rw [v2, ← c2]; rfl
        subst this
        have h2 := v3 rfl
        subst h2
        refine ⟨.prim none q, by simp [Cell.store], ⟨c1, c2⟩, ⟨c1, c2, fun _ => rfl⟩, by simp [Cell.den, Val.den], fun h => h, fun _ h => h⟩
      · refine ⟨.prim (some isN) q, rfl, ⟨c1, c2⟩, ⟨c1, c2, fun h => by cases h⟩, ?_, fun h => h, fun _ h => h⟩
        cases isN <;> simp [Cell.den, Val.den]
    · obtain ⟨⟨b, hb⟩, -⟩ := hc
      exfalso
      rcases s with _ | s
      · obtain ⟨⟨l, hl⟩, -⟩ := hv
        rw [hb] at hl; cases hl
      · have := hv.1
        rw [hb] at this; cases this
  · rcases v with ⟨n, isN, q⟩ | s
    · obtain ⟨⟨b, hb⟩, -⟩ := hv
      have := hc.1
      rw [hb] at this; cases this
    · obtain ⟨h1, h2, h3⟩ := hc
      rcases s with _ | s
      · rcases nb with _ | b
        · have := hv.2
          rw [← h3] at this; cases this
        · refine ⟨.str (some true) buf, rfl, ⟨h1, h2, h3⟩, hv, rfl, fun h => h, fun _ h => h⟩
      · obtain ⟨g1, g2, g3⟩ := hv
        have hl : buf.length = s.length := by rw [h1] at g1; exact KTy.str.inj g1
        rw [h1] at hf
        obtain ⟨m, d, e1, e2, e3, e4, e5⟩ := store_str hl (h2.trans g2.symm) g3 (fuel := fuel) (by simp only [KTy.len] at hf; omega)
        have hpad : Cell.Zeroed (.str nb buf) → buf.length ≤ 8 → Padded { buf with mem := m } := by
          intro hz h8 i j hij hj h0
          have hlen : i = s.val.length ∨ s.val.length < i := by
            by_contra hn
            have hi : i < s.val.length := by omega
            have hi' : i < (NChar.val { buf with mem := m }).length := by rw [e2]; exact hi
            exact (val_get _ hi').2 h0
          rcases Nat.lt_or_ge s.val.length j with h | h
          · show m j = 0
            rw [e4 j h]
            exact hz h8 j hj
          · have : j = i := by omega
            rw [this]; exact h0
        rcases nb with _ | b
        · refine ⟨.str none { buf with mem := m }, by simp [Cell.store, e1], ⟨h1, h2, h3⟩, ⟨h1, h2, e3⟩, ?_, fun h => h, fun hz _ => hpad hz⟩
          simp [Cell.den, Val.den, e2]
        · refine ⟨.str (some false) { buf with mem := m }, by simp [Cell.store, e1], ⟨h1, h2, h3⟩, ⟨h1, h2, e3⟩, ?_, fun h => h, fun hz _ => hpad hz⟩
          simp [Cell.den, Val.den, e2]

theorem insertKey_spec {fuel : Nat} : ∀ {cols : List Col} {cells : List Cell} {vs : List Val}, (∀ c ∈ cols, c.fuelOk fuel) →
    Each2 (fun c x => Cell.Typed c x) cols cells → Each2 (fun c v => Val.Typed c v) cols vs →
    ∃ cells', insertKey fuel cells vs = some cells' ∧ Each2 (fun c x => Cell.Typed c x) cols cells' ∧
      Each2 (fun c v => Val.Typed c v) cols (cells'.map Cell.load) ∧ cells'.map Cell.den = vs.map Val.den ∧
      ((∀ v ∈ vs, v.NotNaN) → ∀ v ∈ cells'.map Cell.load, v.NotNaN) ∧
      ((∀ x ∈ cells, x.Zeroed) → (∀ v ∈ vs, v.Canon) → ∀ v ∈ cells'.map Cell.load, v.Canon)
  | [], [], [], _, _, _ => ⟨[], rfl, trivial, trivial, rfl, by simp, by simp⟩
  | c :: cols, x :: xs, v :: vs, hf, hx, hv => by
    obtain ⟨x', a1, a2, a3, a4, a5, a6⟩ := Cell.store_spec (hf c List.mem_cons_self) hx.1 hv.1
    obtain ⟨xs', b1, b2, b3, b4, b5, b6⟩ := insertKey_spec (fun c h => hf c (List.mem_cons_of_mem _ h)) hx.2 hv.2
    refine ⟨x' :: xs', by rw [insertKey, a1, b1], ⟨a2, b2⟩, ⟨a3, b3⟩, by rw [List.map_cons, List.map_cons, a4, b4], ?_, ?_⟩
    · intro h w hw
      rcases List.mem_cons.1 hw with rfl | hw
      · exact a5 (h v List.mem_cons_self)
      · exact b5 (fun v h' => h v (List.mem_cons_of_mem _ h')) w hw
    · intro hz h w hw
      rcases List.mem_cons.1 hw with rfl | hw
      · exact a6 (hz x List.mem_cons_self) (h v List.mem_cons_self)
      · exact b6 (fun x h' => hz x (List.mem_cons_of_mem _ h')) (fun v h' => h v (List.mem_cons_of_mem _ h')) w hw
  | [], _ :: _, _, _, h, _ => h.elim
  | _ :: _, [], _, _, h, _ => h.elim
  | [], [], _ :: _, _, _, h => h.elim
  | _ :: _, _ :: _, [], _, _, h => h.elim

theorem equalKey_iff {fuel : Nat} (cache : Cache) : ∀ {cols : List Col} {cells : List Cell} {vs : List Val}, (∀ c ∈ cols, c.fuelOk fuel) →
    Each2 (fun c x => Cell.Typed c x) cols cells → Each2 (fun c v => Val.Typed c v) cols vs →
    (equalKey fuel cache cells vs = true ↔ Each2 (fun x v => notDistinct (Cell.den x) (Val.den v)) cells vs)
  | [], [], [], _, _, _ => by simp [equalKey, Each2]
  | c :: cols, x :: xs, v :: vs, hf, hx, hv => by
    rw [equalKey, Bool.and_eq_true, Cell.eq_iff cache (hf c List.mem_cons_self) hx.1 hv.1,
      equalKey_iff cache (fun c h => hf c (List.mem_cons_of_mem _ h)) hx.2 hv.2]
    rfl
  | [], _ :: _, _, _, h, _ => h.elim
  | _ :: _, [], _, _, h, _ => h.elim
  | [], [], _ :: _, _, _, h => h.elim
  | _ :: _, _ :: _, [], _, _, h => h.elim

end Mutable.WHash
