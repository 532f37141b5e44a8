import Verif.PhysOpt.Main

/-! # Every logical operator is covered exactly once -/

namespace Mutable.PhysOpt

variable {L K C : Type}

theorem subopsList_append (a b : List (IOp L)) : subopsList (a ++ b) = subopsList a ++ subopsList b := by
  induction a with
  | nil => simp [subopsList]
  | cons x xs ih => simp [subopsList, ih]

theorem LeafOK_child {isLeaf : L → Bool} {op c : IOp L} (h : LeafOK isLeaf op) (hc : c ∈ op.children) :
    LeafOK isLeaf c := by
  intro o ho
  refine h o ?_
  cases op with
  | node i l cs =>
    simp only [subops, List.mem_cons]
    exact .inr (mem_subopsList_of_mem hc ho)

theorem subops_eq (op : IOp L) : subops op = op :: subopsList op.children := by
  cases op; simp [subops, IOp.children]

theorem Fits_own {isProd : L → Bool} {isLeaf : L → Bool} {pat d op ns ss} (h : Fits isProd pat d op ns ss) :
    pat.leavesIn isLeaf → LeafOK isLeaf op → ∀ rest,
      (ownNodes pat (ns ++ rest)).2 = rest ∧
      ((ownNodes pat (ns ++ rest)).1 ++ subopsList (kidsOf ss)).Perm (subops op) := by
  induction h with
  | wild h => intro _ _ rest; simp [ownNodes, kidsOf, subopsList]
  | @cons is d op h =>
    intro _ _ rest
    have : kidsOf (op.children.map (fun c => (⟨some c, d⟩ : Slot L))) = op.children := by
      simp [kidsOf, List.filterMap_map, Function.comp_def]
    rw [this, subops_eq op]
    simp [ownNodes]
  | @leaf is d op h =>
    intro hp hl rest
    have hc := hl op (mem_subops_self op) (hp _ h)
    rw [subops_eq op, hc]
    simp [ownNodes, kidsOf, subopsList]
  | @one is c d op a ns ss h he hf ih =>
    intro hp hl rest
    obtain ⟨h1, h2⟩ := ih hp (LeafOK_child hl (by rw [he]; simp)) rest
    rw [subops_eq op, he]
    refine ⟨by simpa [ownNodes] using h1, ?_⟩
    simp only [ownNodes, List.cons_append, List.take_succ_cons, List.take_zero, List.drop_succ_cons, List.drop_zero,
      subopsList, List.append_nil, List.nil_append]
    exact h2.cons op
  | @two is c0 c1 d op a b ns0 ns1 ss0 ss1 h he hf0 hf1 ih0 ih1 =>
    intro hp hl rest
    obtain ⟨g1, g2⟩ := ih0 hp.1 (LeafOK_child hl (by rcases he with he | he <;> rw [he] <;> simp)) (ns1 ++ rest)
    obtain ⟨h1, h2⟩ := ih1 hp.2 (LeafOK_child hl (by rcases he with he | he <;> rw [he] <;> simp)) rest
    have hk : kidsOf (ss0 ++ ss1) = kidsOf ss0 ++ kidsOf ss1 := by simp [kidsOf]
    have hperm : (subops a ++ subops b).Perm (subopsList op.children) := by
      rcases he with he | he <;> rw [he] <;> simp only [subopsList, List.append_nil]
      · exact List.Perm.refl _
      · exact List.perm_append_comm
    rw [subops_eq op, hk, subopsList_append]
    simp only [ownNodes, List.cons_append, List.take_succ_cons, List.take_zero, List.drop_succ_cons, List.drop_zero,
      List.append_assoc, List.nil_append, g1]
    refine ⟨h1, ?_⟩
    refine List.Perm.cons op (List.Perm.trans ?_ hperm)
    refine List.Perm.trans ?_ (List.Perm.append g2 h2)
    simp only [List.append_assoc]
    refine List.Perm.append_left _ ?_
    rw [← List.append_assoc, ← List.append_assoc (subopsList (kidsOf ss0))]
    exact List.Perm.append_right _ List.perm_append_comm

theorem coveredList_perm {ops : List (PhysOp L K C)} {kids : List (Kid L K C)}
    (h : ∀ e ∈ kids, (covered ops e.mtch).Perm (subops e.op)) :
    (coveredList ops (kids.map (·.mtch))).Perm (subopsList (kids.map (·.op))) := by
  induction kids with
  | nil => simp [coveredList, subopsList]
  | cons x xs ih =>
    simp only [List.map_cons, coveredList, subopsList]
    exact (h x List.mem_cons_self).append (ih (fun e he => h e (List.mem_cons_of_mem _ he)))

theorem Fits_leafOK {isProd : L → Bool} {isLeaf : L → Bool} {pat d op ns ss} (h : Fits isProd pat d op ns ss) :
    LeafOK isLeaf op → ∀ c ∈ kidsOf ss, LeafOK isLeaf c := by
  intro hl
  exact Fits_kids (D := LeafOK isLeaf) (fun o ho c hc => LeafOK_child ho hc) h (fun _ => hl)
    (fun c hc => LeafOK_child hl hc)

theorem Cov_once {S : Sig L K C} {ops} {isLeaf : L → Bool} (hp : ∀ p ∈ ops, p.pat.leavesIn isLeaf)
    {op k c m} (h : Cov S ops op k c m) : LeafOK isLeaf op → (covered ops m).Perm (subops op) := by
  induction h with
  | @mk oi p op ns ss kids k c h1 h2 h3 h4 h5 h6 h7 ih =>
    intro hl
    have hk := Fits_leafOK h2 hl
    have hcl : (coveredList ops (kids.map (·.mtch))).Perm (subopsList (kids.map (·.op))) := by
      refine coveredList_perm (fun e he => ih e he (hk e.op ?_))
      rw [← h3]; exact List.mem_map.mpr ⟨e, he, rfl⟩
    obtain ⟨_, h9⟩ := Fits_own h2 (hp p (List.mem_of_getElem? h1)) hl []
    simp only [covered, h1]
    rw [List.append_nil] at h9
    rw [h3] at hcl
    exact (List.Perm.append_left _ hcl).trans h9

mutual
theorem WN_nodup : {lo : Nat} → (p : IOp L) → WN lo p → ((subops p).map IOp.id).Nodup
  | lo, .node i l cs, hw => by
    simp only [WN] at hw
    simp only [subops, List.map_cons, List.nodup_cons]
    refine ⟨?_, WNL_nodup cs hw⟩
    intro hm
    obtain ⟨o, ho, he⟩ := List.mem_map.mp hm
    have := (subList_bounds cs hw o ho).2
    simp only [IOp.id] at he
    have : o.id = i := by cases o; exact he
    omega
theorem WNL_nodup : {lo hi : Nat} → (cs : List (IOp L)) → WNL lo cs hi → ((subopsList cs).map IOp.id).Nodup
  | lo, hi, [], hw => by simp [subopsList]
  | lo, hi, c :: cs, hw => by
    simp only [WNL] at hw
    simp only [subopsList, List.map_append]
    rw [List.nodup_append]
    refine ⟨WN_nodup c hw.1, WNL_nodup cs hw.2, ?_⟩
    intro a ha b hb
    obtain ⟨o, ho, rfl⟩ := List.mem_map.mp ha
    obtain ⟨q, hq, rfl⟩ := List.mem_map.mp hb
    have h1 := (sub_bounds c hw.1 o ho).2
    have h2 := (subList_bounds cs hw.2 q hq).1
    omega
end

theorem subopsList_sum (cs : List (IOp L)) :
    (subopsList cs).length = (cs.map (fun o => (subops o).length)).sum := by
  induction cs with
  | nil => simp [subopsList]
  | cons c cs ih => simp [subopsList, ih]

mutual
theorem WN_sub : {lo : Nat} → (p : IOp L) → WN lo p → ∀ o ∈ subops p, ∃ lo', WN lo' o
  | lo, .node i l cs, hw, o, ho => by
    simp only [subops, List.mem_cons] at ho
    rcases ho with rfl | ho
    · exact ⟨lo, hw⟩
    · exact WNL_sub cs (by simpa only [WN] using hw) o ho
theorem WNL_sub : {lo hi : Nat} → (cs : List (IOp L)) → WNL lo cs hi → ∀ o ∈ subopsList cs, ∃ lo', WN lo' o
  | lo, hi, [], hw, o, ho => by simp [subopsList] at ho
  | lo, hi, c :: cs, hw, o, ho => by
    simp only [WNL] at hw
    simp only [subopsList, List.mem_append] at ho
    rcases ho with ho | ho
    · exact WN_sub c hw.1 o ho
    · exact WNL_sub cs hw.2 o ho
end

mutual
/-- the number of operators of a plan -/
def LOp.size : LOp L → Nat
  | .node _ cs => LOp.sizeList cs + 1
def LOp.sizeList : List (LOp L) → Nat
  | [] => 0
  | c :: cs => LOp.size c + LOp.sizeList cs
end

mutual
theorem subops_length (s : Nat) : (p : LOp L) → (subops (assign s p)).length = p.size ∧ (assign s p).id + 1 = s + p.size
  | .node l cs => by
    obtain ⟨h1, h2⟩ := subopsList_length s cs
    simp only [assign, subops, List.length_cons, LOp.size, IOp.id, h1, h2]
    exact ⟨trivial, by omega⟩
theorem subopsList_length (s : Nat) : (cs : List (LOp L)) →
    (subopsList (assignList s cs).1).length = LOp.sizeList cs ∧ (assignList s cs).2 = s + LOp.sizeList cs
  | [] => by simp [assignList, subopsList, LOp.sizeList]
  | c :: cs => by
    obtain ⟨h1, h2⟩ := subops_length s c
    obtain ⟨g1, g2⟩ := subopsList_length ((assign s c).id + 1) cs
    simp only [assignList, subopsList, List.length_append, LOp.sizeList, h1, g1, g2]
    exact ⟨trivial, by omega⟩
end

end Mutable.PhysOpt
