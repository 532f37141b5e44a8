import Verif.WasmLayout.Run
import Mathlib.Data.List.TakeWhile
/-
The stores of one tuple, and whole loops over `stores` and `jumps`.
-/
namespace Mutable.WLayout

/-! ### Single writes -/

theorem oneShift_bit : ∀ k i : Fin 8, (1#8 <<< k.val).getLsbD i.val = decide (i = k) := by decide +kernel
theorem negOne_bit : ∀ i : Fin 8, (-(1#8)).getLsbD i.val = true := by decide +kernel

theorem setbit_byte (b : Byte) (v : Bool) {k i : Nat} (hk : k < 8) (hi : i < 8) :
    (b ^^^ (((-(if v then 1#8 else 0#8)) ^^^ b) &&& (1#8 <<< k))).getLsbD i = if i = k then v else b.getLsbD i := by
  have h1 := oneShift_bit ⟨k, hk⟩ ⟨i, hi⟩
  have h2 := negOne_bit ⟨i, hi⟩
  simp only [Fin.mk.injEq] at h1 h2
  rw [BitVec.getLsbD_xor, BitVec.getLsbD_and, BitVec.getLsbD_xor, h1]
  by_cases e : i = k
  · subst e
    cases v
    · simp
    · simp only [if_true, h2]; simp
  · simp [e]

/-- `setbit` changes one bit. -/
theorem setbit_bitAt (m : Mem) (A : Nat) (v : Bool) {k : Nat} (hk : k < 8) (a : Nat) :
    bitAt (setbit m (A : Int) v (1#8 <<< k)) a = if a = 8 * A + k then v else bitAt m a := by
  unfold bitAt setbit
  by_cases h : a / 8 = A
  · have hc : ((a / 8 : Nat) : Int) = (A : Int) := by rw [h]
    simp only [hc, if_true]
    rw [setbit_byte _ _ hk (Nat.mod_lt _ (by omega))]
    by_cases e : a % 8 = k
    · rw [if_pos e, if_pos (by omega)]
    · rw [if_neg e, if_neg (by omega)]
  · have hc : ¬ ((a / 8 : Nat) : Int) = (A : Int) := by omega
    simp only [hc, if_false]
    rw [if_neg (by omega)]

theorem setbit_atBit (m : Mem) (b : Nat) (v : Bool) (a : Nat) :
    bitAt (setbit m (atBit b).1 v ((atBit b).2.setWidth 8)) a = if a = b then v else bitAt m a := by
  have hk : ((b : Int) % 8).toNat < 8 := by omega
  have e : ((b : Int) % 8).toNat = b % 8 := by omega
  have e2 : (b : Int) / 8 = (b / 8 : Nat) := by omega
  unfold atBit
  have sw := setWidth_mask ⟨_, hk⟩
  simp only at sw
  rw [sw, e, e2, setbit_bitAt _ _ _ (Nat.mod_lt _ (by omega))]
  have : 8 * (b / 8) + b % 8 = b := by omega
  rw [this]

theorem wr_byte (m : Mem) (A : Nat) (bs : List Byte) (x : Nat) :
    wr m (A : Int) bs (x : Nat) = if A ≤ x ∧ x < A + bs.length then bs.getD (x - A) 0 else m (x : Nat) := by
  unfold wr
  by_cases h : A ≤ x ∧ x < A + bs.length
  · have h' : (A : Int) ≤ (x : Nat) ∧ ((x : Nat) : Int) < A + bs.length := by omega
    rw [if_pos h, if_pos h']
    congr 1; omega
  · have h' : ¬ ((A : Int) ≤ (x : Nat) ∧ ((x : Nat) : Int) < A + bs.length) := by omega
    rw [if_neg h, if_neg h']

theorem wr_frame (m : Mem) (A : Nat) (bs : List Byte) {a : Nat} (h : ¬ (8 * A ≤ a ∧ a < 8 * A + 8 * bs.length)) :
    bitAt (wr m (A : Int) bs) a = bitAt m a := by
  unfold bitAt
  rw [wr_byte, if_neg (by omega)]

/-- Bytes are determined by their bits. -/
theorem byte_of_bits {m m' : Mem} {x : Nat} (h : ∀ a, 8 * x ≤ a → a < 8 * x + 8 → bitAt m a = bitAt m' a) : m (x : Nat) = m' (x : Nat) := by
  apply BitVec.eq_of_getLsbD_eq
  intro i hi
  have := h (8 * x + i) (by omega) (by omega)
  unfold bitAt at this
  have e1 : (8 * x + i) / 8 = x := by omega
  have e2 : (8 * x + i) % 8 = i := by omega
  rwa [e1, e2] at this

/-- Number of bits of a type. -/
def Ty.bits : Ty → Nat
  | .bool => 1
  | .num n => 8 * n
  | .str n => 8 * n

/-- A value depends on its bits only. -/
theorem cellAt_congr {m m' : Mem} {ty : Ty} {b : Nat} (h8 : ty ≠ .bool → b % 8 = 0)
    (h : ∀ a, b ≤ a → a < b + ty.bits → bitAt m a = bitAt m' a) : cellAt m ty b = cellAt m' ty b := by
  have lst : ∀ n, ty.bits = 8 * n → b % 8 = 0 → (List.range n).map (fun i => m (b / 8 + i : Nat)) = (List.range n).map (fun i => m' (b / 8 + i : Nat)) := by
    intro n hn hb
    apply List.map_congr_left
    intro i hi
    have := List.mem_range.mp hi
    exact byte_of_bits (fun a h1 h2 => h a (by omega) (by omega))
  cases ty with
  | bool =>
    simp only [cellAt]
    rw [h b (Nat.le_refl _) (by simp [Ty.bits])]
  | num n =>
    simp only [cellAt]
    rw [lst n rfl (h8 (by simp))]
  | str n =>
    simp only [cellAt]
    rw [lst n rfl (h8 (by simp))]

theorem takeWhile_cpy (s : List Byte) (n : Nat) (rest : Nat → Byte) :
    ((List.range n).map (fun i => if i < (cpy n s).length then (cpy n s).getD i 0 else rest i)).takeWhile (· != 0#8) =
      (s.takeWhile (· != 0#8)).take n := by
  have hne : ∀ x ∈ s.takeWhile (· != 0#8), (x != 0#8) = true := fun x hx => List.mem_takeWhile_imp (p := fun x => x != 0#8) hx
  unfold cpy
  generalize s.takeWhile (· != 0#8) = q at hne ⊢
  -- generalised over a shift
  suffices H : ∀ (q : List Byte) (k : Nat) (n : Nat) (rest : Nat → Byte), (∀ x ∈ q, (x != 0#8) = true) →
      ((List.range n).map (fun i => if i < ((q ++ [0#8]).take n).length then ((q ++ [0#8]).take n).getD i 0 else rest i)).takeWhile (· != 0#8) =
      q.take n by exact H q 0 n rest hne
  intro q
  induction q with
  | nil =>
    intro k n rest _
    cases n with
    | zero => rfl
    | succ n => simp [List.range_succ_eq_map]
  | cons x xs ih =>
    intro k n rest hx
    cases n with
    | zero => rfl
    | succ n =>
      have h0 := hx x (by simp)
      have := ih k n (fun i => rest (i + 1)) (fun y hy => hx y (by simp [hy]))
      simp only [List.range_succ_eq_map, List.map_cons, List.map_map, List.cons_append, List.take_succ_cons, List.length_cons,
        Nat.zero_lt_succ, if_true, List.getD_cons_zero, List.takeWhile_cons, h0]
      congr 1
      rw [← this]
      congr 1
      apply List.map_congr_left
      intro i _
      simp only [Function.comp, Nat.succ_eq_add_one, List.getD_cons_succ, Nat.add_lt_add_iff_right]

theorem width_eq {c : Cfg} {i : Nat} (h : i < c.sch.length) : width c.sch i = (c.ty i).bits := by
  unfold width Cfg.ty
  rw [List.getElem?_eq_getElem h]
  cases hq : c.sch[i] with
  | mk ty n => cases ty <;> simp [Ty.bits]

theorem width_null (sch : List Attr) : width sch sch.length = sch.length := by
  unfold width; rw [List.getElem?_eq_none (Nat.le_refl _)]

/-! ### Effects -/

/-- `m'` satisfies `Q` and differs from `m` in bits of `F` only. -/
def Eff (F : Nat → Prop) (Q : Mem → Prop) (m m' : Mem) : Prop := Q m' ∧ ∀ a, ¬ F a → bitAt m' a = bitAt m a

/-- The bits that storing entry `i` of tuple `t` may change; `p` is the predicate. -/
def foot (c : Cfg) (lay : Kids) (base t : Nat) (p : Bool) (i a : Nat) : Prop :=
  ∃ b, (lay.addrs (8 * base) t).lookup i = some b ∧
    if i = c.sch.length then (if p then ∃ k ∈ c.ents, c.nullable k = true ∧ a = b + k else b ≤ a ∧ a < b + c.sch.length)
    else b ≤ a ∧ a < b + width c.sch i

/-- What is true after storing entry `i` of tuple `t`. -/
def post (c : Cfg) (lay : Kids) (base t : Nat) (p : Bool) (row : Row) (i : Nat) (m : Mem) : Prop :=
  p = true → ∃ b, (lay.addrs (8 * base) t).lookup i = some b ∧
    if i = c.sch.length then ∀ k ∈ c.ents, c.nullable k = true → bitAt m (b + k) = row.null k
    else row.null i = true ∨ cellAt m (c.ty i) b = norm (c.ty i) (row.val i)

/-- Addresses of entries other than booleans are byte-aligned. -/
def Aligned (c : Cfg) (lay : Kids) (base : Nat) : Prop :=
  ∀ i < c.sch.length, ∀ t b, (lay.addrs (8 * base) t).lookup i = some b → c.ty i ≠ .bool → b % 8 = 0

theorem post_congr {c : Cfg} {lay : Kids} {base t : Nat} {p : Bool} {row : Row} {i : Nat} {m m' : Mem} (hal : Aligned c lay base)
    (hi : i ≤ c.sch.length) (h : ∀ a, foot c lay base t p i a → bitAt m' a = bitAt m a) (hq : post c lay base t p row i m) :
    post c lay base t p row i m' := by
  intro hp
  obtain ⟨b, hb, h2⟩ := hq hp
  refine ⟨b, hb, ?_⟩
  by_cases e : i = c.sch.length
  · rw [if_pos e] at h2 ⊢
    intro k hk hn
    rw [h (b + k) ⟨b, hb, by rw [if_pos e, hp, if_pos rfl]; exact ⟨k, hk, hn, rfl⟩⟩]
    exact h2 k hk hn
  · rw [if_neg e] at h2 ⊢
    rcases h2 with h2 | h2
    · exact Or.inl h2
    · refine Or.inr (h2 ▸ cellAt_congr (hal i (by omega) t b hb) (fun a h3 h4 => h a ⟨b, hb, ?_⟩))
      rw [if_neg e, width_eq (by omega)]
      exact ⟨h3, h4⟩

/-- Storing the entries `D` of tuple `t`. -/
def Effs (c : Cfg) (lay : Kids) (base t : Nat) (p : Bool) (row : Row) (D : List Nat) (m m' : Mem) : Prop :=
  Eff (fun a => ∃ i ∈ D, foot c lay base t p i a) (fun m => ∀ i ∈ D, post c lay base t p row i m) m m'

theorem Effs.nil (c : Cfg) (lay : Kids) (base t : Nat) (p : Bool) (row : Row) (m : Mem) : Effs c lay base t p row [] m m :=
  ⟨by simp, fun _ _ => rfl⟩

theorem Effs.append {c : Cfg} {lay : Kids} {base t : Nat} {p : Bool} {row : Row} {D D' : List Nat} {m m' m'' : Mem}
    (hal : Aligned c lay base) (hsep : ∀ i j a, i ≠ j → foot c lay base t p i a → ¬ foot c lay base t p j a)
    (hD : ∀ i ∈ D, i ≤ c.sch.length) (hdis : ∀ i ∈ D, i ∉ D')
    (h : Effs c lay base t p row D m m') (h' : Effs c lay base t p row D' m' m'') : Effs c lay base t p row (D ++ D') m m'' := by
  refine ⟨fun i hi => ?_, fun a ha => ?_⟩
  · rcases List.mem_append.mp hi with hi | hi
    · refine post_congr hal (hD i hi) (fun a ha => h'.2 a ?_) (h.1 i hi)
      rintro ⟨j, hj, hf⟩
      exact hsep i j a (fun e => hdis i hi (e ▸ hj)) ha hf
    · exact h'.1 i hi
  · rw [h'.2 a (fun ⟨j, hj, hf⟩ => ha ⟨j, List.mem_append.mpr (Or.inr hj), hf⟩),
      h.2 a (fun ⟨j, hj, hf⟩ => ha ⟨j, List.mem_append.mpr (Or.inl hj), hf⟩)]

/-! ### Single accesses -/

theorem storeNullDyn_true {c : Cfg} {nb : Nat} {row : Row} : ∀ (is : List Nat) (prev : Nat) (x : Int × BitVec 32) (m : Mem),
    x = atBit (nb + prev : Nat) → is.Nodup →
    let r := storeNullDyn c true row is prev x m
    r.1 = atBit (nb + r.2.1 : Nat) ∧
    (∀ k ∈ is, c.nullable k = true → k ∈ c.ents → bitAt r.2.2 (nb + k) = row.null k) ∧
    (∀ a, (¬ ∃ k ∈ is, (k ∈ c.ents ∧ c.nullable k = true) ∧ a = nb + k) → bitAt r.2.2 a = bitAt m a)
  | [], prev, x, m, hx, _ => ⟨hx, by simp, fun _ _ => rfl⟩
  | i :: is, prev, x, m, hx, hn => by
    rw [List.nodup_cons] at hn
    simp only [storeNullDyn]
    split
    · rename_i hc
      simp only [Bool.and_eq_true, List.contains_iff_mem] at hc
      have hx' : advance true ((i : Int) - prev) x = atBit (nb + i : Nat) := by
        rw [hx, advance_atBit]; congr 1; push_cast; ring
      obtain ⟨r1, r2, r3⟩ := storeNullDyn_true is i _ (setbit m (advance true ((i : Int) - prev) x).1 (row.null i)
        ((advance true ((i : Int) - prev) x).2.setWidth 8)) hx' hn.2
      have hm : ∀ a, bitAt (setbit m (advance true ((i : Int) - prev) x).1 (row.null i)
        ((advance true ((i : Int) - prev) x).2.setWidth 8)) a = if a = nb + i then row.null i else bitAt m a := by
        intro a; rw [hx', setbit_atBit]
      refine ⟨r1, fun k hk hkn hke => ?_, fun a ha => ?_⟩
      · rcases List.mem_cons.mp hk with rfl | hk
        · rw [r3 (nb + k) (fun ⟨k', hk', _, e⟩ => hn.1 ((show k = k' by omega) ▸ hk')), hm, if_pos rfl]
        · exact r2 k hk hkn hke
      · rw [r3 a (fun ⟨k', hk', h1, e⟩ => ha ⟨k', by simp [hk'], h1, e⟩), hm, if_neg (fun e => ha ⟨i, by simp, ⟨hc.2, hc.1⟩, e⟩)]
    · rename_i hne
      obtain ⟨r1, r2, r3⟩ := storeNullDyn_true (c := c) (row := row) is prev x m hx hn.2
      refine ⟨r1, fun k hk hkn hke => ?_, fun a ha => r3 a (fun ⟨k', hk', h1, e⟩ => ha ⟨k', by simp [hk'], h1, e⟩)⟩
      rcases List.mem_cons.mp hk with rfl | hk
      · simp [hkn, hke] at hne
      · exact r2 k hk hkn hke

theorem storeNullDyn_false {c : Cfg} {nb : Nat} {row : Row} : ∀ (is : List Nat) (prev : Nat) (m : Mem),
    let r := storeNullDyn c false row is prev (atBit nb) m
    r.1 = atBit nb ∧ (∀ a, a ≠ nb → bitAt r.2.2 a = bitAt m a)
  | [], prev, m => ⟨rfl, fun _ _ => rfl⟩
  | i :: is, prev, m => by
    simp only [storeNullDyn]
    split
    · rw [advance_false]
      obtain ⟨r1, r2⟩ := storeNullDyn_false (c := c) (row := row) (nb := nb) is i (setbit m (atBit nb).1 (row.null i) ((atBit nb).2.setWidth 8))
      refine ⟨r1, fun a ha => ?_⟩
      rw [r2 a ha, setbit_atBit, if_neg ha]
    · exact storeNullDyn_false is prev m

theorem storeNullStat_ok {c : Cfg} {row : Row} {f : Leaf} {A nb : Nat} (h8 : A % 8 = 0) (hnb : nb = A + f.off) :
    ∀ (is : List Nat) (m : Mem), is.Nodup →
    let r := storeNullStat c row f ((A / 8 : Nat) : Int) is m
    (∀ k ∈ is, c.nullable k = true → bitAt r (nb + k) = row.null k) ∧
    (∀ a, (¬ ∃ k ∈ is, c.nullable k = true ∧ a = nb + k) → bitAt r a = bitAt m a)
  | [], m, _ => ⟨by simp, fun _ _ => rfl⟩
  | i :: is, m, hn => by
    rw [List.nodup_cons] at hn
    simp only [storeNullStat]
    split
    · rename_i hc
      have e0 : ((A / 8 : Nat) : Int) + ((f.off + i) / 8 : Nat) = (A / 8 + (f.off + i) / 8 : Nat) := by push_cast; rfl
      rw [e0]
      have hm : ∀ a, bitAt (setbit m ((A / 8 + (f.off + i) / 8 : Nat) : Int) (row.null i) (1#8 <<< ((f.off + i) % 8))) a =
          if a = nb + i then row.null i else bitAt m a := by
        intro a
        rw [setbit_bitAt _ _ _ (Nat.mod_lt _ (by omega))]
        have : 8 * (A / 8 + (f.off + i) / 8) + (f.off + i) % 8 = nb + i := by omega
        rw [this]
      obtain ⟨r1, r2⟩ := storeNullStat_ok (c := c) (row := row) h8 hnb is
        (setbit m ((A / 8 + (f.off + i) / 8 : Nat) : Int) (row.null i) (1#8 <<< ((f.off + i) % 8))) hn.2
      refine ⟨fun k hk hkn => ?_, fun a ha => ?_⟩
      · rcases List.mem_cons.mp hk with rfl | hk
        · rw [r2 (nb + k) (fun ⟨k', hk', _, e⟩ => hn.1 ((show k = k' by omega) ▸ hk')), hm, if_pos rfl]
        · exact r1 k hk hkn
      · rw [r2 a (fun ⟨k', hk', h1, e⟩ => ha ⟨k', by simp [hk'], h1, e⟩), hm, if_neg (fun e => ha ⟨i, by simp, hc, e⟩)]
    · rename_i hne
      obtain ⟨r1, r2⟩ := storeNullStat_ok (c := c) (row := row) h8 hnb is m hn.2
      refine ⟨fun k hk hkn => ?_, fun a ha => r2 a (fun ⟨k', hk', h1, e⟩ => ha ⟨k', by simp [hk'], h1, e⟩)⟩
      rcases List.mem_cons.mp hk with rfl | hk
      · exact absurd hkn hne
      · exact r1 k hk hkn

/-- Storing a value without bit stride at bit address `b`. -/
theorem storeStat_ok {c : Cfg} {row : Row} {f : Leaf} {b : Nat} (hty : row.Typed c) (hf : f.idx ∈ c.ents)
    (h8 : c.ty f.idx ≠ .bool → b % 8 = 0) (hb : b % 8 = f.off % 8) (m : Mem) :
    let r := storeStat c row f ((b / 8 : Nat) : Int) m
    (row.null f.idx = true ∨ cellAt r (c.ty f.idx) b = norm (c.ty f.idx) (row.val f.idx)) ∧
    (∀ a, ¬ (b ≤ a ∧ a < b + (c.ty f.idx).bits) → bitAt r a = bitAt m a) := by
  have ht := hty f.idx hf
  unfold storeStat
  cases hc : c.ty f.idx with
  | bool =>
    rw [hc] at ht
    cases hv : row.val f.idx with
    | bit v =>
      have hm : ∀ a, bitAt (setbit m ((b / 8 : Nat) : Int) v (1#8 <<< (f.off % 8))) a = if a = b then v else bitAt m a := by
        intro a
        rw [setbit_bitAt _ _ _ (Nat.mod_lt _ (by omega))]
        have : 8 * (b / 8) + f.off % 8 = b := by omega
        rw [this]
      simp only
      refine ⟨Or.inr ?_, fun a ha => ?_⟩
      · simp only [cellAt, hm, if_pos, norm]
      · rw [hm, if_neg (fun e => ha (by subst e; simp [Ty.bits]))]
    | num _ => rw [hv] at ht; exact ht.elim
    | str _ => rw [hv] at ht; exact ht.elim
  | num n =>
    rw [hc] at ht
    have h8' := h8 (by rw [hc]; simp)
    cases hv : row.val f.idx with
    | bit _ => rw [hv] at ht; exact ht.elim
    | num bs =>
      rw [hv] at ht
      simp only at ht
      have et : bs.take n = bs := List.take_of_length_le (by omega)
      simp only
      rw [et]
      refine ⟨Or.inr ?_, fun a ha => ?_⟩
      · simp only [cellAt, norm, Cell.num.injEq]
        apply List.ext_getElem
        · simp [ht]
        · intro i h1 h2
          simp only [List.getElem_map, List.getElem_range]
          rw [wr_byte, if_pos (by omega)]
          have : b / 8 + i - b / 8 = i := by omega
          rw [this, List.getD_eq_getElem?_getD, List.getElem?_eq_getElem h2]
          rfl
      · apply wr_frame
        simp only [Ty.bits] at ha
        omega
    | str _ => rw [hv] at ht; exact ht.elim
  | str n =>
    rw [hc] at ht
    have h8' := h8 (by rw [hc]; simp)
    cases hv : row.val f.idx with
    | bit _ => rw [hv] at ht; exact ht.elim
    | num _ => rw [hv] at ht; exact ht.elim
    | str s =>
      simp only
      by_cases hnull : row.null f.idx = true
      · rw [if_pos hnull]
        exact ⟨Or.inl hnull, fun _ _ => rfl⟩
      · rw [if_neg hnull]
        refine ⟨Or.inr ?_, fun a ha => ?_⟩
        · simp only [cellAt, norm, Cell.str.injEq]
          rw [← takeWhile_cpy s n (fun i => m (b / 8 + i : Nat))]
          congr 1
          apply List.map_congr_left
          intro i _
          rw [wr_byte]
          have : b / 8 + i - b / 8 = i := by omega
          rw [this]
          by_cases hlt : i < (cpy n s).length
          · rw [if_pos hlt, if_pos (by omega)]
          · rw [if_neg hlt, if_neg (by omega)]
        · apply wr_frame
          have : (cpy n s).length ≤ n := by unfold cpy; simp
          simp only [Ty.bits] at ha
          omega

end Mutable.WLayout
