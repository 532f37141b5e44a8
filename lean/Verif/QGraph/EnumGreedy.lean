import Verif.QGraph.Enum
import Verif.Greedy.Props

/-! The greedy plan enumerators leave the entries of single relations without a split. -/
namespace Mutable.QG
open SQL CNF SB PE AdjMat

variable {C D K W : Type} [LinearOrder C] [LinearOrder K] {E : Env C D}

theorem model_singles {T : PT C D} (h : Singles T) (S : SB) (m : Option D) : Singles (setEntry T S { T S with model := m }) := by
  intro i hi
  rw [setEntry]
  split
  · rename_i e; rw [← e]; exact h i hi
  · exact h i hi

theorem ensureModel_singles {T T' : PT C D} {A B : SB} (h : Singles T) (e : ensureModel E T A B = some T') : Singles T' := by
  rw [ensureModel] at e
  split at e
  · cases e; exact h
  · split at e
    · cases e; exact model_singles h _ _
    · cases e

theorem gooVisit_singles {card : D → K} {nodes : List Node} {st st' : PT C D × Option (K × Nat × Nat)} {p : Nat × Nat} (h : Singles st.1)
    (e : gooVisit E card nodes st p = some st') : Singles st'.1 := by
  rw [gooVisit] at e
  split at e
  · split at e
    · cases e
    · cases e; exact h
    · split at e
      · cases e
      · split at e
        · cases e
        · split at e
          · cases e
          · rename_i T hT
            have := ensureModel_singles h hT
            split at e
            · cases e
            · split at e
              · cases e; exact this
              · split at e <;> (cases e; exact this)
  · cases e

theorem gooLoop_singles {card : D → K} : ∀ (fuel : Nat) (nodes : List Node) {T : PT C D} {r : List (SB × SB) × PT C D}, Singles T →
    gooLoop E card fuel nodes T = some r → Singles r.2 := by
  intro fuel
  induction fuel with
  | zero =>
    intro nodes T r h e
    rw [gooLoop.eq_def] at e
    dsimp only at e
    split at e
    · cases e; exact h
    · cases e
  | succ fuel ih =>
    intro nodes T r h e
    rw [gooLoop.eq_def] at e
    dsimp only at e
    split at e
    · cases e; exact h
    · split at e
      · rename_i T1 _ i j he
        have h1 : Singles T1 := foldlM_inv (P := fun st : PT C D × Option (K × Nat × Nat) => Singles st.1) _ (fun _ _ _ _ => gooVisit_singles) h he
        split at e
        · split at e
          · cases e
          · rename_i hd
            split at e
            · cases e
            · split at e
              · cases e
              · rename_i T2 hu
                rw [Option.map_eq_some_iff] at e
                obtain ⟨r', e1, rfl⟩ := e
                have h2 := ih _ (update_singles ((isEmpty_iff' _).1 (by simpa using hd)) h1 hu) e1
                exact h2
        · cases e
      · cases e

theorem goo_singles {card : D → K} {T : PT C D} {r : List (SB × SB) × PT C D} (h : Singles T) (e : goo E card T = some r) : Singles r.2 :=
  gooLoop_singles _ _ h e

theorem ensureAll_singles {estAll : SB → D} {T : PT C D} (h : Singles T) (S : SB) : Singles (ensureAll estAll T S) := by
  rw [ensureAll]
  split
  · exact h
  · exact model_singles h _ _

theorem tdgooVisit_spec [Add K] {card : D → K} {estAll : SB → D} {st st' : PT C D × Option (K × SB × SB)} {p : SB × SB} (h : Singles st.1)
    (hb : ∀ b ∈ st.2, b.2.1 &&& b.2.2 = 0#64) (hp : p.1 &&& p.2 = 0#64)
    (e : tdgooVisit card estAll st p = some st') : Singles st'.1 ∧ ∀ b ∈ st'.2, b.2.1 &&& b.2.2 = 0#64 := by
  rw [tdgooVisit] at e
  have h' := ensureAll_singles (estAll := estAll) (ensureAll_singles (estAll := estAll) h p.1) p.2
  split at e
  · split at e
    · cases e; exact ⟨h', by simp [hp]⟩
    · rename_i best hbest
      rw [hbest] at hb
      split at e
      · cases e; exact ⟨h', by simp [hp]⟩
      · cases e; exact ⟨h', hb⟩
  · cases e

theorem agat_disj {M : AdjMat} {S : SB} {l : List (SB × SB)} (e : M.agatPartition S = some l) : ∀ p ∈ l, p.1 &&& p.2 = 0#64 := by
  rw [agatPartition] at e
  split at e
  · exact agatLoop_disj _ _ _ _ _ e
  · cases e

theorem tdgooLoop_spec [Add K] {card : D → K} {estAll : SB → D} : ∀ (fuel : Nat) (W : List SB) (js : List (SB × SB)) {T : PT C D}
    {r : List (SB × SB) × PT C D}, Singles T → (∀ p ∈ js, p.1 &&& p.2 = 0#64) → tdgooLoop E card estAll fuel W js T = some r →
    Singles r.2 ∧ ∀ p ∈ r.1, p.1 &&& p.2 = 0#64 := by
  intro fuel
  induction fuel with
  | zero =>
    intro W js T r h hj e
    cases W with
    | nil => rw [tdgooLoop] at e; cases e; exact ⟨h, hj⟩
    | cons => rw [tdgooLoop] at e; cases e
  | succ fuel ih =>
    intro W js T r h hj e
    cases W with
    | nil => rw [tdgooLoop] at e; cases e; exact ⟨h, hj⟩
    | cons top W =>
      rw [tdgooLoop] at e
      split at e
      · exact ih _ _ h hj e
      · split at e
        · cases e
        · rename_i parts hparts
          split at e
          · rename_i T1 _ l r' hf
            obtain ⟨h1, h2⟩ := foldlM_inv (P := fun st : PT C D × Option (K × SB × SB) => Singles st.1 ∧ ∀ b ∈ st.2, b.2.1 &&& b.2.2 = 0#64) _
              (fun p hp _ _ hs he => tdgooVisit_spec hs.1 hs.2 (agat_disj hparts p hp) he) ⟨h, by simp⟩ hf
            split at e
            · cases e
            · refine ih _ _ h1 ?_ e
              intro p hp
              rcases List.mem_cons.1 hp with rfl | hp
              · exact h2 _ rfl
              · exact hj p hp
          · cases e

theorem tdgoo_singles [Add K] {card : D → K} {estAll : SB → D} {T : PT C D} {r : List (SB × SB) × PT C D} (h : Singles T)
    (e : tdgoo E card estAll T = some r) : Singles r.2 := by
  rw [tdgoo] at e
  split at e
  · cases e
  · rename_i js T1 hl
    obtain ⟨h1, h2⟩ := tdgooLoop_spec _ _ _ h (by simp) hl
    rw [Option.map_eq_some_iff] at e
    obtain ⟨T2, e1, rfl⟩ := e
    exact foldlM_inv _ (fun p hp _ _ hs he => update_singles (h2 p hp) hs he) h1 e1

theorem pushRanked_singles {X : LinEnv C D W} {MST : AdjMat} {parent : Nat} {N : List Nat} {st st' : PT C D × List (Nat × W)} (h : Singles st.1)
    (e : pushRanked E X MST parent N st = some st') : Singles st'.1 := by
  rw [pushRanked] at e
  refine foldlM_inv (P := fun st : PT C D × List (Nat × W) => Singles st.1) _ (fun c _ s s' hs he => ?_) h e
  split at he
  · cases he
  · split at he
    · cases he
    · rename_i T hT
      split at he
      · cases he; exact ensureModel_singles hs hT
      · cases he

theorem linLoop_spec {X : LinEnv C D W} {MST : AdjMat} : ∀ (fuel : Nat) (Q : List (Nat × W)) (joined : SB) (lin : List Nat) {T : PT C D}
    {r : PT C D × SB × List Nat}, Singles T → lin.Nodup → (∀ x ∈ lin, Mem joined x) → (∀ x ∈ lin, x < 64) →
    linLoop E X MST fuel Q joined lin T = some r → Singles r.1 ∧ r.2.2.Nodup ∧ ∀ x ∈ r.2.2, x < 64 := by
  intro fuel
  induction fuel with
  | zero =>
    intro Q joined lin T r h hn hm h64 e
    rw [linLoop.eq_def] at e
    dsimp only at e
    split at e
    · cases e; exact ⟨h, hn, h64⟩
    · cases e
  | succ fuel ih =>
    intro Q joined lin T r h hn hm h64 e
    rw [linLoop.eq_def] at e
    dsimp only at e
    split at e
    · cases e; exact ⟨h, hn, h64⟩
    · split at e
      · cases e
      · rename_i id _ _
        split at e
        · cases e
        · rename_i hd
          have hd : joined &&& SB.singleton id = 0#64 := (isEmpty_iff' _).1 (by simpa using hd)
          split at e
          · cases e
          · rename_i hc
            split at e
            · cases e
            · rename_i T1 hu
              have h1 := update_singles hd h hu
              split at e
              · cases e
              · rename_i T2 Q2 hp
                have hid : id < 64 := by
                  by_contra hge
                  rw [update] at hu
                  have : SB.singleton id = 0#64 := by
                    apply SB.ext; intro i; rw [mem_singleton]
                    simp [Mem]; omega
                  rw [this] at hu
                  simp [isEmpty] at hu
                have hnm : id ∉ lin := fun hx => (disj_iff _ _).1 hd id (hm id hx) ((mem_singleton _ _).2 ⟨hid, rfl⟩)
                refine ih _ _ _ (pushRanked_singles h1 hp) ?_ ?_ ?_ e
                · rw [List.nodup_append]
                  exact ⟨hn, by simp, fun a ha b hb => by rw [List.mem_singleton] at hb; subst hb; exact fun e => hnm (e ▸ ha)⟩
                · intro x hx
                  rw [SB.mem_or]
                  rcases List.mem_append.1 hx with hx | hx
                  · exact .inl (hm x hx)
                  · rw [List.mem_singleton] at hx; subst hx; exact .inr ((mem_singleton _ _).2 ⟨hid, rfl⟩)
                · intro x hx
                  rcases List.mem_append.1 hx with hx | hx
                  · exact h64 x hx
                  · rw [List.mem_singleton] at hx; subst hx; exact hid

theorem clearPrefixes_singles {inf : C} : ∀ (l : List Nat) (runner : SB) {T T' : PT C D}, Singles T →
    clearPrefixes inf runner l T = some T' → Singles T' := by
  intro l
  induction l with
  | nil => intro runner T T' h e; rw [clearPrefixes] at e; cases e; exact h
  | cons R l ih =>
    intro runner T T' h e
    rw [clearPrefixes] at e
    split at e
    · cases e
    · dsimp only at e
      split at e
      · cases e
      · refine ih _ ?_ e
        intro i hi
        rw [setEntry]
        split
        · exact ⟨rfl, rfl⟩
        · exact h i hi

theorem linRoot_spec {X : LinEnv C D W} {MST : AdjMat} {st st' : PT C D × List Nat × C} {root : Nat} (hr : root < 64) (h : Singles st.1)
    (hn : st.2.1.Nodup ∧ ∀ x ∈ st.2.1, x < 64) (e : linRoot E X MST st root = some st') :
    Singles st'.1 ∧ st'.2.1.Nodup ∧ ∀ x ∈ st'.2.1, x < 64 := by
  rw [linRoot] at e
  split at e
  · cases e
  · rename_i T Q hp
    split at e
    · cases e
    · rename_i T1 joined lin hl
      obtain ⟨h1, h2, h3⟩ := linLoop_spec _ _ _ _ (pushRanked_singles h hp) (by simp) (by simp [mem_singleton, hr]) (by simpa using hr) hl
      dsimp only at e
      split at e
      · cases e
      · rename_i T2 hc
        have h4 := clearPrefixes_singles _ _ h1 hc
        split at e
        · cases e; exact ⟨h4, h2, h3⟩
        · cases e; exact ⟨h4, hn⟩

theorem linearize_spec (hn : E.n ≤ 64) {X : LinEnv C D W} {dflt : D} {T : PT C D} {r : PT C D × List Nat} (h : Singles T)
    (e : linearize E X dflt T = some r) : Singles r.1 ∧ r.2.Nodup ∧ ∀ x ∈ r.2, x < 64 := by
  rw [linearize] at e
  split at e
  · cases e
  · rename_i T1 hs
    have h1 : Singles T1 := by
      rw [selModels] at hs
      exact foldlM_inv _ (fun _ _ _ _ hs he => ensureModel_singles hs he) h hs
    rw [Option.map_eq_some_iff] at e
    obtain ⟨st, e1, rfl⟩ := e
    exact foldlM_inv (P := fun st : PT C D × List Nat × C => Singles st.1 ∧ st.2.1.Nodup ∧ ∀ x ∈ st.2.1, x < 64) _
      (fun a ha _ _ hs he => linRoot_spec (by have := List.mem_range.1 ha; omega) hs.1 hs.2 he) ⟨h1, by simp⟩ e1

theorem linJoin_singles : ∀ (l : List Nat) (right : SB) {T T' : PT C D}, Singles T → l.Nodup → (∀ x ∈ l, ¬ Mem right x) →
    linJoin E right l T = some T' → Singles T' := by
  intro l
  induction l with
  | nil => intro right T T' h _ _ e; rw [linJoin] at e; cases e; exact h
  | cons x l ih =>
    intro right T T' h hn hm e
    rw [linJoin] at e
    split at e
    · cases e
    · rename_i T1 hu
      refine ih _ (update_singles ((disj_iff _ _).2 fun i a b => ?_) h hu) (List.nodup_cons.1 hn).2 ?_ e
      · rw [mem_singleton] at a; exact hm x (by simp) (a.2 ▸ b)
      · intro y hy hc
        rw [SB.mem_or, mem_singleton] at hc
        rcases hc with hc | hc
        · exact (List.nodup_cons.1 hn).1 (hc.2 ▸ hy)
        · exact hm y (by simp [hy]) hc

theorem ikkbz_singles (hn : E.n ≤ 64) {X : LinEnv C D W} {dflt : D} {T T' : PT C D} (h : Singles T) (e : ikkbz E X dflt T = some T') : Singles T' := by
  rw [ikkbz] at e
  split at e
  · cases e
  · rename_i T1 lin hl
    obtain ⟨h1, h2, -⟩ := linearize_spec hn h hl
    split at e
    · cases e
    · split at e
      · cases e
      · rename_i x rest
        refine linJoin_singles _ _ h1 (List.nodup_cons.1 h2).2 ?_ e
        intro y hy hc
        rw [mem_singleton] at hc
        exact (List.nodup_cons.1 h2).1 (hc.2 ▸ hy)

theorem seqSplits_singles {lin : List Nat} {b e : Nat} {S : SB} {T T' : PT C D} (h : Singles T) (he : seqSplits E lin b e S T = some T') : Singles T' := by
  rw [seqSplits] at he
  split at he
  · exact foldlM_inv _ (fun _ _ _ _ hs he => tryUpdate_singles (inter_diff _ _) hs he) h he
  · cases he; exact h

theorem seqLoop_singles {lin : List Nat} : ∀ (fuel b e : Nat) (S : SB) (right : Bool) {T T' : PT C D}, Singles T →
    seqLoop E lin fuel b e S right T = some T' → Singles T' := by
  intro fuel
  induction fuel with
  | zero => intro b e S right T T' _ h; rw [seqLoop] at h; cases h
  | succ fuel ih =>
    intro b e S right T T' h he
    rw [seqLoop] at he
    split at he
    · cases he
    · rename_i T1 hs
      have h1 := seqSplits_singles h hs
      split at he
      · cases he; exact h1
      · split at he
        · split at he
          · split at he
            · cases he
            · exact ih _ _ _ _ h1 he
          · exact ih _ _ _ _ h1 he
        · split at he
          · split at he
            · cases he
            · exact ih _ _ _ _ h1 he
          · exact ih _ _ _ _ h1 he

theorem linDP_singles (hn : E.n ≤ 64) {X : LinEnv C D W} {dflt : D} {T T' : PT C D} (h : Singles T) (e : linDP E X dflt T = some T') : Singles T' := by
  rw [linDP] at e
  split at e
  · cases e; exact h
  · split at e
    · cases e
    · rename_i hl
      have h1 := (linearize_spec hn h hl).1
      split at e
      · cases e
      · exact seqLoop_singles _ _ _ _ _ h1 e

end Mutable.QG
