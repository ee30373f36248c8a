import Verif.Lemmas.Group

/-! # Which uses `replace_output_leaf_nodes` replaces -/

namespace OM
open Spec

section
variable (o : SetOrder Ref) (root leaf : Ref)

theorem HeapOk.lists_closed {univ : List Ref} {h : DepHeap} (ok : HeapOk root leaf univ h) {P : Ref → Prop}
    (hP : ∀ u, P u → ∀ x ∈ h.deps u, P x) {u : Ref} (hu : P u) {v : Nat} (hv : v ≤ h.ver u) {x : Ref}
    (hx : x ∈ h.lists u v) : P x := by
  by_cases hr : x = root
  · subst hr
    rcases Nat.lt_or_eq_of_le hv with hlt | rfl
    · exact absurd hx (ok.stale u v hlt)
    · exact hP u hu x hx
  · exact hP u hu x (ok.sub u v hv x hx hr)

theorem replaced_closed {g g' : Graph} (hn : ∀ u, (g u).Nodup) (r : Replaced o root leaf g g') {P : Ref → Prop}
    (hl : P leaf) (hP : ∀ u, P u → ∀ x ∈ g u, P x) : ∀ u, P u → ∀ x ∈ g' u, P x := by
  intro u hu x hx
  rcases r u with e | ⟨_, e⟩
  · exact hP u hu x (e ▸ hx)
  · rw [e, mem_replaced o root leaf (hn u)] at hx
    rcases hx with ⟨h, _⟩ | rfl
    · exact hP u hu x h
    · exact hl

/-- A scan changes only lists of what can be reached. -/
theorem replaceScan_untouched (hne : leaf ≠ root) (univ : List Ref) (P : Ref → Prop) (hl : P leaf) (n : Nat) :
    ∀ (node : Ref) (obj i : Nat) (h h' : DepHeap), HeapOk root leaf univ h → obj ≤ h.ver node → P node →
    (∀ u, P u → ∀ x ∈ h.deps u, P x) → replaceScan o root leaf n node obj i h = some h' →
    ∀ u, ¬ P u → h'.lists u = h.lists u ∧ h'.ver u = h.ver u := by
  induction n with
  | zero => intro node obj i h h' _ _ _ _ hs; simp [replaceScan] at hs
  | succ n ih =>
    intro node obj i h h' ok hobj hnode hP hs u hu
    unfold replaceScan at hs
    cases hi : (h.lists node obj)[i]? with
    | none =>
      simp only [hi, Option.some.injEq] at hs
      subst hs
      exact ⟨rfl, rfl⟩
    | some dep =>
      simp only [hi] at hs
      have hmem : dep ∈ h.lists node obj := List.mem_of_getElem? hi
      have hdep : P dep := ok.lists_closed root leaf hP hnode hobj hmem
      by_cases hd : dep = root
      · subst hd
        rw [if_pos rfl] at hs
        have hr : dep ∈ h.deps node := by
          rcases Nat.lt_or_eq_of_le hobj with hlt | he
          · exact absurd hmem (ok.stale node obj hlt)
          · subst he; exact hmem
        obtain ⟨ok1, r1, e1, l1, v1⟩ := replaceDep_ok o dep leaf hne ok hr
        have hun : u ≠ node := fun e => hu (e ▸ hnode)
        have hu1 : (replaceDep o dep leaf node h).lists u = h.lists u ∧
            (replaceDep o dep leaf node h).ver u = h.ver u := by
          unfold replaceDep
          exact ⟨Function.update_of_ne hun .., Function.update_of_ne hun ..⟩
        have hP1 := replaced_closed o dep leaf ok.nodup r1 hl hP
        set h1 := replaceDep o dep leaf node h
        cases h2e : replaceScan o dep leaf n dep (h1.ver dep) 0 h1 with
        | none => simp [h2e] at hs
        | some h2 =>
          simp only [h2e] at hs
          obtain ⟨ok2, r2, e2, l2, v2⟩ := replaceScan_frame o dep leaf hne univ n _ _ _ _ _ ok1 le_rfl h2e
          have hP2 := replaced_closed o dep leaf ok1.nodup r2 hl hP1
          have a1 := ih _ _ _ _ _ ok1 le_rfl hdep hP1 h2e u hu
          have a2 := ih _ _ _ _ _ ok2 (hobj.trans ((v1 node).trans (v2 node))) hnode hP2 hs u hu
          exact ⟨a2.1.trans (a1.1.trans hu1.1), a2.2.trans (a1.2.trans hu1.2)⟩
      · rw [if_neg hd] at hs
        cases h2e : replaceScan o root leaf n dep (h.ver dep) 0 h with
        | none => simp [h2e] at hs
        | some h2 =>
          simp only [h2e] at hs
          obtain ⟨ok2, r2, e2, l2, v2⟩ := replaceScan_frame o root leaf hne univ n _ _ _ _ _ ok le_rfl h2e
          have hP2 := replaced_closed o root leaf ok.nodup r2 hl hP
          have a1 := ih _ _ _ _ _ ok le_rfl hdep hP h2e u hu
          have a2 := ih _ _ _ _ _ ok2 (hobj.trans (v2 node)) hnode hP2 hs u hu
          exact ⟨a2.1.trans a1.1, a2.2.trans a1.2⟩

theorem CleanFrom.replaced {g g' : Graph} (hne : leaf ≠ root) (hn : ∀ u, (g u).Nodup)
    (hl : g leaf = []) (r : Replaced o root leaf g g')
    {u : Ref} (h : CleanFrom root g u) : CleanFrom root g' u := by
  have key : ∀ x, Reach g' u x → Reach g u x ∨ x = leaf := by
    intro x hx
    induction hx with
    | refl => exact Or.inl .refl
    | @tail x y _ hxy ih =>
      replace hxy : y ∈ g' x := hxy
      rcases r x with e | ⟨_, e⟩
      · rw [e] at hxy
        rcases ih with ih | rfl
        · exact Or.inl (ih.tail hxy)
        · rw [hl] at hxy; simp at hxy
      · rw [e, mem_replaced o root leaf (hn x)] at hxy
        rcases hxy with ⟨hxy, _⟩ | rfl
        · rcases ih with ih | rfl
          · exact Or.inl (ih.tail hxy)
          · rw [hl] at hxy; simp at hxy
        · exact Or.inr rfl
  intro x hx hr
  have hrg : root ∈ g x := by
    rcases r x with e | ⟨m, _⟩
    · exact e ▸ hr
    · exact m
  rcases key x hx with h1 | rfl
  · exact h x h1 hrg
  · rw [hl] at hrg; simp at hrg

/-- In `g0` what comes after `root` in a list below `node` does not depend on `root`. -/
def NothingSkipped (g0 : Graph) (node : Ref) : Prop :=
  ∀ u, Reach g0 node u → ∀ pre x post, g0 u = pre ++ root :: x :: post → CleanFrom root g0 x

theorem cleanFrom_leaf {g : Graph} (hl : g leaf = []) : CleanFrom root g leaf := by
  apply cleanFrom_of_children
  rw [hl]; simp

theorem replaceScan_visits (hne : leaf ≠ root) (univ : List Ref) {g0 : Graph} (hn0 : ∀ u, (g0 u).Nodup)
    (hl0 : g0 leaf = []) (hac : AcyclicG g0) (n : Nat) :
    ∀ (node : Ref) (obj i : Nat) (h h' : DepHeap), HeapOk root leaf univ h → Replaced o root leaf g0 h.deps →
    obj ≤ h.ver node → (node = leaf → obj = h.ver node) → NothingSkipped root g0 node →
    replaceScan o root leaf n node obj i h = some h' →
    (∀ d ∈ (h.lists node obj).drop i, CleanFrom root h'.deps d) ∧
      (obj = h.ver node → root ∈ (h.lists node obj).drop i → root ∉ h'.deps node) := by
  induction n with
  | zero => intro node obj i h h' _ _ _ _ _ hs; simp [replaceScan] at hs
  | succ n ih =>
    intro node obj i h h' ok r hobj hleaf hg hs
    -- what a fresh call achieves
    have fresh : ∀ (node : Ref) (h h' : DepHeap), HeapOk root leaf univ h → Replaced o root leaf g0 h.deps →
        NothingSkipped root g0 node → replaceScan o root leaf n node (h.ver node) 0 h = some h' →
        CleanFrom root h'.deps node := by
      intro node h h' ok r hg hs
      obtain ⟨c1, c2⟩ := ih _ _ _ _ _ ok r le_rfl (fun _ => rfl) hg hs
      rw [List.drop_zero] at c1 c2
      obtain ⟨ok', r', _⟩ := replaceScan_frame o root leaf hne univ n _ _ _ _ _ ok le_rfl hs
      apply cleanFrom_of_children
      intro d hd
      rcases r' node with e | ⟨_, e⟩
      · have hd' : d ∈ h.deps node := e ▸ hd
        refine ⟨?_, c1 d hd'⟩
        rintro rfl
        exact c2 rfl hd' hd
      · rw [e, mem_replaced o root leaf (ok.nodup node)] at hd
        rcases hd with ⟨h1, h2⟩ | rfl
        · exact ⟨h2, c1 d h1⟩
        · exact ⟨hne, cleanFrom_leaf root d ok'.leaf_nil⟩
    unfold replaceScan at hs
    cases hi : (h.lists node obj)[i]? with
    | none =>
      have : (h.lists node obj).drop i = [] := List.drop_eq_nil_of_le (List.getElem?_eq_none_iff.1 hi)
      rw [this]
      simp
    | some dep =>
      simp only [hi] at hs
      obtain ⟨hlt, hget⟩ := List.getElem?_eq_some_iff.1 hi
      have hmem : dep ∈ h.lists node obj := List.mem_of_getElem? hi
      have hnl : node ≠ leaf := by
        rintro rfl
        rw [hleaf rfl] at hmem
        have := ok.leaf_nil
        unfold DepHeap.deps at this
        rw [this] at hmem; simp at hmem
      -- the edges of `g0`
      have hedge : ∀ {h : DepHeap}, Replaced o root leaf g0 h.deps → ∀ {u x : Ref}, x ∈ h.deps u →
          x ∈ g0 u ∨ x = leaf := by
        intro h r u x hx
        rcases r u with e | ⟨_, e⟩
        · exact Or.inl (e ▸ hx)
        · rw [e, mem_replaced o root leaf (hn0 u)] at hx
          exact hx.imp (·.1) id
      have hdepg : dep ∈ g0 node ∨ dep = leaf := by
        apply hedge r
        by_cases hr : dep = root
        · subst hr
          rcases Nat.lt_or_eq_of_le hobj with hlt | rfl
          · exact absurd hmem (ok.stale node obj hlt)
          · exact hmem
        · exact ok.sub node obj hobj dep hmem hr
      have hgd : NothingSkipped root g0 dep := by
        rcases hdepg with h1 | rfl
        · intro u hu
          exact hg u (.head h1 hu)
        · intro u hu pre x post he
          rcases Relation.ReflTransGen.cases_head hu with rfl | ⟨d, hd, _⟩
          · rw [hl0] at he; simp at he
          · replace hd : d ∈ g0 dep := hd
            rw [hl0] at hd; simp at hd
      -- the lists of `node` are not changed by the inner call
      let P : Ref → Prop := fun x => x = leaf ∨ Reach g0 dep x
      have hPn : ¬ P node := by
        rintro (h1 | h1)
        · exact hnl h1
        · rcases hdepg with h2 | rfl
          · exact hac node (Relation.TransGen.head' h2 h1)
          · rcases Relation.ReflTransGen.cases_head h1 with h3 | ⟨d, hd, _⟩
            · exact hnl h3.symm
            · replace hd : d ∈ g0 dep := hd
              rw [hl0] at hd; simp at hd
      have hPc : ∀ {h : DepHeap}, Replaced o root leaf g0 h.deps → ∀ u, P u → ∀ x ∈ h.deps u, P x := by
        intro h r
        refine replaced_closed o root leaf hn0 r (P := P) (Or.inl rfl) ?_
        rintro u (rfl | hu) x hx
        · rw [hl0] at hx; simp at hx
        · exact Or.inr (hu.tail hx)
      have hPd : P dep := Or.inr .refl
      by_cases hd : dep = root
      · subst hd
        rw [if_pos rfl] at hs
        have hov : obj = h.ver node := by
          rcases Nat.lt_or_eq_of_le hobj with hlt | he
          · exact absurd hmem (ok.stale node obj hlt)
          · exact he
        subst hov
        have hr : dep ∈ h.deps node := hmem
        have hdn : h.deps node = g0 node := by
          rcases r node with e | ⟨_, e⟩
          · exact e
          · rw [e, mem_replaced o dep leaf (hn0 node)] at hr
            rcases hr with ⟨_, h1⟩ | h1
            · exact absurd rfl h1
            · exact absurd h1.symm hne
        obtain ⟨ok1, r1, e1, l1, v1⟩ := replaceDep_ok o dep leaf hne ok hr
        have hl1 : (replaceDep o dep leaf node h).lists node (h.ver node) =
            (h.deps node).erase dep ++ [leaf] := by
          unfold replaceDep
          simp only [removeDepNode_eq_erase, Function.update_self]
          rw [Function.update_of_ne (by omega), Function.update_self]
        have hv1 : h.ver node < (replaceDep o dep leaf node h).ver node := by
          unfold replaceDep
          simp
        have hself := replaceDep_deps_self o dep leaf node h
        have hnr1 : dep ∉ (replaceDep o dep leaf node h).deps node := by
          rw [hself, mem_replaced o dep leaf (ok.nodup node)]
          rintro (⟨_, h⟩ | h)
          · exact h rfl
          · exact hne h.symm
        generalize replaceDep o dep leaf node h = h1 at *
        have r01 := Replaced.trans o dep leaf hne hn0 r r1
        cases h2e : replaceScan o dep leaf n dep (h1.ver dep) 0 h1 with
        | none => simp [h2e] at hs
        | some h2 =>
          simp only [h2e] at hs
          obtain ⟨ok2, r2, e2, l2, v2⟩ := replaceScan_frame o dep leaf hne univ n _ _ _ _ _ ok1 le_rfl h2e
          have r02 := Replaced.trans o dep leaf hne hn0 r01 r2
          have hclean := fresh _ _ _ ok1 r01 hgd h2e
          have hun := replaceScan_untouched o dep leaf hne univ P (Or.inl rfl) n _ _ _ _ _ ok1 le_rfl hPd
            (hPc r01) h2e node hPn
          have hobj2 : h.ver node ≤ h2.ver node := hobj.trans ((v1 node).trans (v2 node))
          obtain ⟨ok3, r3, _⟩ := replaceScan_frame o dep leaf hne univ n _ _ _ _ _ ok2 hobj2 hs
          have r03 := Replaced.trans o dep leaf hne hn0 r02 r3
          obtain ⟨c1, _⟩ := ih _ _ _ _ _ ok2 r02 hobj2 (fun e => absurd e hnl) hg hs
          rw [hun.1, hl1] at c1
          have hnr : ∀ {g g' : Graph}, (∀ u, (g u).Nodup) → Replaced o dep leaf g g' → dep ∉ g node →
              dep ∉ g' node := by
            intro g g' hn r h hc
            rcases r node with e | ⟨m, _⟩
            · exact h (e ▸ hc)
            · exact h m
          refine ⟨?_, fun _ _ => hnr ok2.nodup r3 (hnr ok1.nodup r2 hnr1)⟩
          have hsplit : h.deps node = (h.deps node).take i ++ dep :: (h.deps node).drop (i + 1) := by
            conv_lhs => rw [← List.take_append_drop i (h.deps node)]
            rw [List.drop_eq_getElem_cons (show i < (h.deps node).length from hlt)]
            congr 2
          have hdrop : (h.lists node (h.ver node)).drop i = dep :: (h.deps node).drop (i + 1) := by
            rw [List.drop_eq_getElem_cons hlt, hget]
            rfl
          rw [hdrop]
          generalize (h.deps node).drop (i + 1) = rest at *
          have hlen : ((h.deps node).take i).length = i := by
            rw [List.length_take]
            exact min_eq_left (le_of_lt hlt)
          generalize (h.deps node).take i = pre at *
          have hpre : dep ∉ pre := by
            have := ok.nodup node
            rw [hsplit] at this
            exact fun hm => (List.disjoint_of_nodup_append this) hm (by simp)
          have herase : (h.deps node).erase dep = pre ++ rest := by
            rw [hsplit, List.erase_append_right _ hpre, List.erase_cons_head]
          rw [herase] at c1
          intro d hd'
          rcases List.mem_cons.1 hd' with rfl | hd'
          · exact CleanFrom.replaced o d leaf hne ok2.nodup ok2.leaf_nil r3 hclean
          · cases rest with
            | nil => simp at hd'
            | cons x post =>
              rcases List.mem_cons.1 hd' with rfl | hd'
              · exact CleanFrom.replaced o dep leaf hne hn0 hl0 r03
                  (hg node .refl pre d post (hdn ▸ hsplit))
              · apply c1 d
                have : (pre ++ x :: post ++ [leaf]).drop (i + 1) = post ++ [leaf] := by
                  rw [← hlen]
                  simp [List.drop_append]
                rw [this]
                simp [hd']
      · rw [if_neg hd] at hs
        cases h2e : replaceScan o root leaf n dep (h.ver dep) 0 h with
        | none => simp [h2e] at hs
        | some h2 =>
          simp only [h2e] at hs
          obtain ⟨ok2, r2, e2, l2, v2⟩ := replaceScan_frame o root leaf hne univ n _ _ _ _ _ ok le_rfl h2e
          have r02 := Replaced.trans o root leaf hne hn0 r r2
          have hclean := fresh _ _ _ ok r hgd h2e
          have hun := replaceScan_untouched o root leaf hne univ P (Or.inl rfl) n _ _ _ _ _ ok le_rfl hPd
            (hPc r) h2e node hPn
          have hobj2 : obj ≤ h2.ver node := hobj.trans (v2 node)
          obtain ⟨ok3, r3, _⟩ := replaceScan_frame o root leaf hne univ n _ _ _ _ _ ok2 hobj2 hs
          obtain ⟨c1, c2⟩ := ih _ _ _ _ _ ok2 r02 hobj2 (fun e => absurd e hnl) hg hs
          rw [hun.1] at c1 c2
          rw [hun.2] at c2
          rw [List.drop_eq_getElem_cons hlt, hget]
          refine ⟨fun d hd' => ?_, fun he hm => c2 he ?_⟩
          · rcases List.mem_cons.1 hd' with rfl | hd'
            · exact CleanFrom.replaced o root leaf hne ok2.nodup ok2.leaf_nil r3 hclean
            · exact c1 d hd'
          · rcases List.mem_cons.1 hm with h1 | h1
            · exact absurd h1.symm hd
            · exact h1

/-- If nothing skipped depends on `root`, everything is replaced. -/
theorem replaceLeafNodes_all {fuel : Nat} {node : Ref} {g g' : Graph} (hne : leaf ≠ root)
    (hn : ∀ u, (g u).Nodup) (hl : g leaf = []) (hfin : ∃ univ : List Ref, ∀ u, root ∈ g u → u ∈ univ)
    (hac : AcyclicG g) (hg : NothingSkipped root g node)
    (h : replaceLeafNodes o fuel root node leaf g = some g') : CleanFrom root g' node := by
  obtain ⟨univ, hu⟩ := hfin
  unfold replaceLeafNodes at h
  rw [Option.map_eq_some_iff] at h
  obtain ⟨h', hs, rfl⟩ := h
  have ok := heapOk_ofGraph root leaf univ hn hu hl
  have r : Replaced o root leaf g (DepHeap.ofGraph g).deps := fun u => Or.inl rfl
  obtain ⟨c1, c2⟩ := replaceScan_visits o root leaf hne univ hn hl hac fuel _ _ _ _ _ ok r
    (le_refl 0) (fun _ => rfl) hg hs
  rw [List.drop_zero] at c1 c2
  obtain ⟨ok', r', _⟩ := replaceScan_frame o root leaf hne univ fuel _ _ _ _ _ ok (le_refl 0) hs
  apply cleanFrom_of_children
  intro d hd
  rcases r' node with e | ⟨_, e⟩
  · have hd' : d ∈ (DepHeap.ofGraph g).deps node := e ▸ hd
    refine ⟨?_, c1 d hd'⟩
    rintro rfl
    exact c2 rfl hd' hd
  · rw [e, mem_replaced o root leaf (ok.nodup node)] at hd
    rcases hd with ⟨h1, h2⟩ | rfl
    · exact ⟨h2, c1 d h1⟩
    · exact ⟨hne, cleanFrom_leaf root d ok'.leaf_nil⟩

/-! ## What is skipped -/

/-- A loop over a list without `root` changes only what can be reached from its elements. -/
theorem replaceScan_rest (hne : leaf ≠ root) (univ : List Ref) (P : Ref → Prop) (hl : P leaf) (n : Nat) :
    ∀ (node : Ref) (obj i : Nat) (h h' : DepHeap), HeapOk root leaf univ h → obj ≤ h.ver node → ¬ P node →
    (∀ u, P u → ∀ x ∈ h.deps u, P x) → (∀ x ∈ (h.lists node obj).drop i, x ≠ root ∧ P x) →
    replaceScan o root leaf n node obj i h = some h' → ∀ u, ¬ P u → h'.deps u = h.deps u := by
  induction n with
  | zero => intro node obj i h h' _ _ _ _ _ hs; simp [replaceScan] at hs
  | succ n ih =>
    intro node obj i h h' ok hobj hnode hP hd hs u hu
    unfold replaceScan at hs
    cases hi : (h.lists node obj)[i]? with
    | none =>
      simp only [hi, Option.some.injEq] at hs
      rw [hs]
    | some dep =>
      simp only [hi] at hs
      obtain ⟨hlt, hget⟩ := List.getElem?_eq_some_iff.1 hi
      rw [List.drop_eq_getElem_cons hlt, hget] at hd
      obtain ⟨hdr, hdp⟩ := hd dep (by simp)
      rw [if_neg hdr] at hs
      cases h2e : replaceScan o root leaf n dep (h.ver dep) 0 h with
      | none => simp [h2e] at hs
      | some h2 =>
        simp only [h2e] at hs
        obtain ⟨ok2, r2, e2, l2, v2⟩ := replaceScan_frame o root leaf hne univ n _ _ _ _ _ ok le_rfl h2e
        have hP2 := replaced_closed o root leaf ok.nodup r2 hl hP
        have hun := replaceScan_untouched o root leaf hne univ P hl n _ _ _ _ _ ok le_rfl hdp hP h2e
        have hrest := ih _ _ _ _ _ ok2 (hobj.trans (v2 node)) hnode hP2
          (fun x hx => hd x (List.mem_cons_of_mem _ ((hun node hnode).1 ▸ hx))) hs u hu
        rw [hrest]
        unfold DepHeap.deps
        rw [(hun u hu).1, (hun u hu).2]

/-- The loop over a list in which `x` follows `root` changes, apart from that list, only what can be reached from the
other elements. -/
theorem replaceScan_skips (hne : leaf ≠ root) (univ : List Ref) (P : Ref → Prop) (hl : P leaf) (hr : P root) (n : Nat) :
    ∀ (node : Ref) (i : Nat) (h h' : DepHeap) (pre post : List Ref) (x : Ref), HeapOk root leaf univ h → ¬ P node →
    (∀ u, P u → ∀ x ∈ h.deps u, P x) → h.deps node = pre ++ root :: x :: post → i ≤ pre.length →
    (∀ y ∈ pre, P y) → (∀ y ∈ post, P y) →
    replaceScan o root leaf n node (h.ver node) i h = some h' → ∀ u, u ≠ node → ¬ P u → h'.deps u = h.deps u := by
  induction n with
  | zero => intro node i h h' pre post x _ _ _ _ _ _ _ hs; simp [replaceScan] at hs
  | succ n ih =>
    intro node i h h' pre post x ok hnode hP hdeps hi hpre hpost hs u hun hu
    have hnd := ok.nodup node
    rw [hdeps] at hnd
    have hdeps' : h.lists node (h.ver node) = pre ++ root :: x :: post := hdeps
    unfold replaceScan at hs
    rcases Nat.lt_or_eq_of_le hi with hlt | rfl
    · have hget : (h.lists node (h.ver node))[i]? = some pre[i] := by
        rw [hdeps', List.getElem?_append_left hlt, List.getElem?_eq_getElem hlt]
      have hmem : pre[i] ∈ pre := List.getElem_mem hlt
      have hne' : pre[i] ≠ root := fun e => (List.disjoint_of_nodup_append hnd) hmem (by simp [e])
      simp only [hget, if_neg hne'] at hs
      cases h2e : replaceScan o root leaf n pre[i] (h.ver pre[i]) 0 h with
      | none => simp [h2e] at hs
      | some h2 =>
        simp only [h2e] at hs
        obtain ⟨ok2, r2, e2, l2, v2⟩ := replaceScan_frame o root leaf hne univ n _ _ _ _ _ ok le_rfl h2e
        have hP2 := replaced_closed o root leaf ok.nodup r2 hl hP
        have hun' := replaceScan_untouched o root leaf hne univ P hl n _ _ _ _ _ ok le_rfl (hpre _ hmem) hP h2e
        have hd2 : h2.deps node = h.deps node := by
          unfold DepHeap.deps
          rw [(hun' node hnode).1, (hun' node hnode).2]
        rw [← (hun' node hnode).2] at hs
        rw [ih node (i + 1) h2 h' pre post x ok2 hnode hP2 (hd2.trans hdeps) hlt hpre hpost hs u hun hu]
        unfold DepHeap.deps
        rw [(hun' u hu).1, (hun' u hu).2]
    · have hget : (h.lists node (h.ver node))[pre.length]? = some root := by
        rw [hdeps']; simp
      simp only [hget, if_true] at hs
      have hrm : root ∈ h.deps node := by rw [hdeps]; simp
      obtain ⟨ok1, r1, e1, l1, v1⟩ := replaceDep_ok o root leaf hne ok hrm
      have hP1 := replaced_closed o root leaf ok.nodup r1 hl hP
      have hl1 : (replaceDep o root leaf node h).lists node (h.ver node) =
          (h.deps node).erase root ++ [leaf] := by
        unfold replaceDep
        simp only [removeDepNode_eq_erase, Function.update_self]
        rw [Function.update_of_ne (by omega), Function.update_self]
      have hu1 := replaceDep_deps_ne o root leaf hun h
      generalize replaceDep o root leaf node h = h1 at *
      cases h2e : replaceScan o root leaf n root (h1.ver root) 0 h1 with
      | none => simp [h2e] at hs
      | some h2 =>
        simp only [h2e] at hs
        obtain ⟨ok2, r2, e2, l2, v2⟩ := replaceScan_frame o root leaf hne univ n _ _ _ _ _ ok1 le_rfl h2e
        have hP2 := replaced_closed o root leaf ok1.nodup r2 hl hP1
        have hun' := replaceScan_untouched o root leaf hne univ P hl n _ _ _ _ _ ok1 le_rfl hr hP1 h2e
        have hpr : root ∉ pre := fun hm => (List.disjoint_of_nodup_append hnd) hm (by simp)
        have hprx : root ∉ x :: post := (List.nodup_cons.1 (List.nodup_append.1 hnd).2.1).1
        have hdrop : (h2.lists node (h.ver node)).drop (pre.length + 1) = post ++ [leaf] := by
          rw [(hun' node hnode).1, hl1, hdeps, List.erase_append_right _ hpr, List.erase_cons_head]
          simp [List.drop_append]
        rw [replaceScan_rest o root leaf hne univ P hl n node (h.ver node) (pre.length + 1) h2 h' ok2
          ((v1 node).trans (v2 node)) hnode hP2 ?_ hs u hu, ← hu1]
        · unfold DepHeap.deps
          rw [(hun' u hu).1, (hun' u hu).2]
        · rw [hdrop]
          intro y hy
          rcases List.mem_append.1 hy with hy | hy
          · exact ⟨fun e => hprx (by simp [← e, hy]), hpost y hy⟩
          · rw [List.mem_singleton] at hy
            subst hy
            exact ⟨hne, hl⟩

/-- What follows `root` in the list of `node` keeps its uses of `root`, if it is not used by the other elements. -/
theorem replaceLeafNodes_skips {fuel : Nat} {node : Ref} {g g' : Graph} (hne : leaf ≠ root)
    (hn : ∀ u, (g u).Nodup) (hl : g leaf = []) (hfin : ∃ univ : List Ref, ∀ u, root ∈ g u → u ∈ univ)
    (hac : AcyclicG g) {pre post : List Ref} {x : Ref} (hd : g node = pre ++ root :: x :: post)
    (h : replaceLeafNodes o fuel root node leaf g = some g') {u : Ref} (hun : u ≠ node) (hul : u ≠ leaf)
    (hu : ∀ y ∈ g node, y ≠ x → ¬ Reach g y u) : g' u = g u := by
  obtain ⟨univ, hfu⟩ := hfin
  unfold replaceLeafNodes at h
  rw [Option.map_eq_some_iff] at h
  obtain ⟨h', hs, rfl⟩ := h
  have ok := heapOk_ofGraph root leaf univ hn hfu hl
  have hnd := hn node
  rw [hd] at hnd
  have hxr : root ≠ x := fun e =>
    (List.nodup_cons.1 (List.nodup_append.1 hnd).2.1).1 (by simp [e])
  have hxp : x ∉ post :=
    (List.nodup_cons.1 (List.nodup_cons.1 (List.nodup_append.1 hnd).2.1).2).1
  have hxpre : x ∉ pre := fun hm => (List.disjoint_of_nodup_append hnd) hm (by simp)
  have hnl : node ≠ leaf := by
    rintro rfl
    rw [hl] at hd; simp at hd
  refine replaceScan_skips o root leaf hne univ
    (fun z => z = leaf ∨ ∃ y ∈ g node, y ≠ x ∧ Reach g y z) (Or.inl rfl)
    (Or.inr ⟨root, by rw [hd]; simp, hxr, .refl⟩) fuel node 0 _ h' pre post x ok ?_ ?_ hd (Nat.zero_le _) ?_ ?_ hs
    u hun ?_
  · rintro (h1 | ⟨y, hy, _, hr⟩)
    · exact hnl h1
    · exact hac node (Relation.TransGen.head' hy hr)
  · rintro a (rfl | ⟨y, hy, hyx, hr⟩) z hz
    · replace hz : z ∈ g a := hz
      rw [hl] at hz; simp at hz
    · exact Or.inr ⟨y, hy, hyx, hr.tail hz⟩
  · intro y hy
    exact Or.inr ⟨y, by rw [hd]; simp [hy], fun e => hxpre (e ▸ hy), .refl⟩
  · intro y hy
    exact Or.inr ⟨y, by rw [hd]; simp [hy], fun e => hxp (e ▸ hy), .refl⟩
  · rintro (h1 | ⟨y, hy, hyx, hr⟩)
    · exact hul h1
    · exact hu y hy hyx hr

end

end OM
