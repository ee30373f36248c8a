import Verif.Lemmas.Pipeline

/-! # Setup of a group that was set up before, and setup of long chains -/

namespace OM
open Spec

theorem topoIter_nil (g D : Graph) (n : Nat) (visits : Ref → Nat) (l : List Ref) :
    topoIter g D n ⟨[], visits, l⟩ = ⟨[], visits, l⟩ := by
  cases n <;> rfl

/-- With a root that counts as visited the loop of `topological_sort` ends at once. -/
theorem topoIter_stale (g D : Graph) (n : Nat) (root : Ref) (visits : Ref → Nat)
    (h : (D root).length < visits root) : (topoIter g D n ⟨[root], visits, []⟩).sorted = [] := by
  cases n with
  | zero => rfl
  | succ n =>
    have : topoStep g D ⟨[root], visits, []⟩ = some ⟨[], visits, []⟩ := by
      simp [topoStep, Nat.not_le.2 h]
    simp only [topoIter, this, topoIter_nil]

theorem sortExpressions_stale (env : SetupEnv) (isIndep : Ref → Bool) (root : Ref) (st : GState)
    (hv : st.visits root = 1) (hd : st.dependents root = []) (st' : GState) (l : List Ref)
    (h : sortExpressions env isIndep root st = .ok (st', l)) : l = [] := by
  unfold sortExpressions at h
  cases hr : registerNodes st.deps env.limit root st.nodes with
  | none => simp [hr] at h
  | some nodes =>
    simp only [hr] at h
    set g2 := removeIndirectAll env.oi nodes (addIndeps env.ov isIndep root nodes st.deps)
    by_cases hc : ChainsLt g2 root env.limit
    · obtain ⟨D, hD, hDm, _⟩ := addFwdEdges_spec env.ov (d := st.dependents) hc
      simp only [hD] at h
      split at h
      · simp at h
      · split at h
        · simp at h
        · simp only [Except.ok.injEq, Prod.mk.injEq] at h
          rw [← h.2]
          apply topoIter_stale
          have : D root = [] := by
            rw [List.eq_nil_iff_forall_not_mem]
            intro w hw
            rcases (hDm root w).1 hw with h' | ⟨h1, h2⟩
            · simp [hd] at h'
            · exact hc.acyclic root Relation.ReflTransGen.refl (Relation.TransGen.tail' h1 h2)
          rw [this, hv]
          simp
    · simp [addFwdEdges_none env.ov hc] at h

theorem reducedDeps_subset (o : SetOrder Nat) (g : Graph) (u : Ref) :
    ∀ b ∈ reducedDeps o g u, b ∈ g u := by
  have h1 : ∀ (l : List Ref) (i : Nat), ∀ b ∈ removeByIndex l i, b ∈ l := by
    intro l i b hb
    unfold removeByIndex at hb
    split at hb
    · exact List.mem_of_mem_erase hb
    · exact hb
  unfold reducedDeps
  simp only
  generalize (if (o.list (removeCandidates g u)).length = (g u).length then 1 else 0) = t
  generalize (o.list (removeCandidates g u)).reverse = is
  generalize g u = l
  induction is generalizing l with
  | nil => intro b hb; exact hb
  | cons i is ih =>
    intro b hb
    rw [List.foldl_cons] at hb
    have := ih _ b hb
    split at this
    · exact h1 l i b this
    · exact this

theorem removeIndirectAll_subset (o : SetOrder Nat) (nodes : List Ref) (g : Graph) :
    ∀ a b, b ∈ removeIndirectAll o nodes g a → b ∈ g a := by
  unfold removeIndirectAll
  induction nodes generalizing g with
  | nil => intro a b h; exact h
  | cons u t ih =>
    intro a b h
    rw [List.foldl_cons] at h
    have := ih _ a b h
    unfold removeIndirect at this
    by_cases hau : a = u
    · subst hau
      rw [Function.update_self] at this
      exact reducedDeps_subset o g a b this
    · rwa [Function.update_of_ne hau] at this

theorem registerNodes_all_known {g : Graph} {n : Nat} {u : Ref} {ns : List Ref} (hn : 0 < n)
    (h : ∀ v ∈ g u, v ∈ ns) : registerNodes g n u ns = some ns := by
  obtain ⟨n, rfl⟩ := Nat.exists_eq_succ_of_ne_zero hn.ne'
  simp only [registerNodes]
  revert h
  generalize g u = ds
  intro h
  induction ds with
  | nil => rfl
  | cons d ds ih =>
    rw [List.foldlM_cons, if_pos (h d (by simp))]
    exact ih fun v hv => h v (List.mem_cons_of_mem _ hv)

/-- A second run right after a first one succeeds and sorts nothing. -/
theorem sortExpressions_again (env env' : SetupEnv) (isIndep : Ref → Bool) (root : Ref)
    (deps : Graph) (n : Nat) (hlim : n + 1 ≤ env'.limit) (st : GState) (g1 : Graph)
    (hac : AcyclicFrom deps root)
    (hw : WithIndeps deps isIndep root g1) (hv : st.visits root = 1) (hd : st.dependents root = [])
    (hsub : ∀ a b, b ∈ st.deps a → b ∈ g1 a) (hc1 : ChainsLt g1 root (n + 1))
    (hnodes : ∀ v, v ∈ st.nodes ↔ Needs deps root v) (hdep : ∀ v ∈ st.nodes, st.dependents v ≠ [])
    (hroot : ∀ v, v ∈ st.deps root → v ∈ st.nodes) :
    ∃ st', sortExpressions env' isIndep root st = .ok (st', []) := by
  have key : ∃ r, sortExpressions env' isIndep root st = .ok r := by
    unfold sortExpressions
    rw [registerNodes_all_known (by omega) hroot]
    simp only
    have hr : root ∉ st.nodes := fun h => hac root Relation.ReflTransGen.refl ((hnodes root).1 h)
    obtain ⟨e1, _, _⟩ := addIndeps_spec env'.ov isIndep root st.nodes st.deps hr
    set g2 := removeIndirectAll env'.oi st.nodes (addIndeps env'.ov isIndep root st.nodes st.deps)
      with hg2
    have hedge : ∀ a b, Edge g2 a b → Edge g1 a b := by
      intro a b h
      rcases (e1 a b).1 (removeIndirectAll_subset _ _ _ a b h) with h' | ⟨h1, h2, h3, h4⟩
      · exact hsub a b h'
      · refine (hw a b).2 (Or.inr ⟨(hnodes a).1 h1, h2, h3, ?_⟩)
        rcases (hw root b).1 (hsub root b h4) with h5 | ⟨h5, _⟩
        · exact h5
        · exact absurd h5 (hac root Relation.ReflTransGen.refl)
    have hc2 : ChainsLt g2 root env'.limit := (hc1.of_edge_imp hedge).mono hlim
    obtain ⟨D, hD, hDm, _⟩ := addFwdEdges_spec env'.ov (d := st.dependents) hc2
    obtain ⟨cost, hcost⟩ := dagCost_isSome st.cost hc2
    simp only [hD]
    rw [if_neg]
    · simp only [hcost]
      exact ⟨_, rfl⟩
    · rw [List.any_eq_true]
      rintro ⟨v, hv, h0⟩
      simp only [beq_iff_eq, List.length_eq_zero_iff] at h0
      obtain ⟨w, hw⟩ := List.exists_mem_of_ne_nil _ (hdep v hv)
      have := (hDm v w).2 (Or.inl hw)
      simp [h0] at this
  obtain ⟨⟨st', l⟩, h⟩ := key
  have := sortExpressions_stale env' isIndep root st hv hd st' l h
  exact ⟨st', this ▸ h⟩

/-! ## Long chains -/

theorem isChain_expand {g g' : Graph} (h : ∀ a b, Edge g a b → Needs g' a b) (l : List Ref)
    (u : Ref) (hl : List.IsChain (Edge g) (u :: l)) :
    ∃ l', List.IsChain (Edge g') (u :: l') ∧ l.length ≤ l'.length := by
  induction l generalizing u with
  | nil => exact ⟨[], by simp, by simp⟩
  | cons v l ih =>
    rw [List.isChain_cons_cons] at hl
    obtain ⟨l', h1, h2⟩ := ih v hl.2
    have key : ∀ a b, Needs g' a b → ∀ m, List.IsChain (Edge g') (b :: m) →
        ∃ m', List.IsChain (Edge g') (a :: m') ∧ m.length + 1 ≤ m'.length := by
      intro a b hab
      induction hab using Relation.TransGen.head_induction_on with
      | single hab => exact fun m hm => ⟨_ :: m, List.isChain_cons_cons.2 ⟨hab, hm⟩, by simp⟩
      | head hac _ ih =>
        intro m hm
        obtain ⟨m', h3, h4⟩ := ih m hm
        exact ⟨_ :: m', List.isChain_cons_cons.2 ⟨hac, h3⟩, by simp; omega⟩
    obtain ⟨m', h3, h4⟩ := key u v (h u v hl.1) l' h1
    exact ⟨m', h3, by simp; omega⟩

theorem registerNodes_sub {g : Graph} {n : Nat} {u : Ref} {ns ns' : List Ref}
    (h : registerNodes g n u ns = some ns') : ∀ w ∈ ns', w ∈ ns ∨ Needs g u w := by
  induction n generalizing u ns ns' with
  | zero => simp [registerNodes] at h
  | succ n ih =>
    simp only [registerNodes] at h
    have loop : ∀ (ds : List Ref) (ms : List Ref), (∀ d ∈ ds, d ∈ g u) →
        ds.foldlM (fun nodes v =>
          if v ∈ nodes then some nodes else registerNodes g n v (nodes ++ [v])) ms = some ns' →
        ∀ w ∈ ns', w ∈ ms ∨ Needs g u w := by
      intro ds
      induction ds with
      | nil => intro ms _ h w hw; simp at h; exact Or.inl (h ▸ hw)
      | cons d ds ihd =>
        intro ms hds h w hw
        have hd : d ∈ g u := hds d (by simp)
        simp only [List.foldlM_cons] at h
        split at h
        · exact ihd ms (fun x hx => hds x (List.mem_cons_of_mem _ hx)) h w hw
        · cases hr : registerNodes g n d (ms ++ [d]) with
          | none => simp [hr] at h
          | some ms' =>
            simp only [hr, Option.bind_eq_bind, Option.bind_some] at h
            rcases ihd ms' (fun x hx => hds x (List.mem_cons_of_mem _ hx)) h w hw with h1 | h1
            · rcases ih hr w h1 with h2 | h2
              · rw [List.mem_append, List.mem_singleton] at h2
                rcases h2 with h2 | rfl
                · exact Or.inl h2
                · exact Or.inr (Relation.TransGen.single hd)
              · exact Or.inr (Relation.TransGen.head hd h2)
            · exact Or.inr h1
    exact loop (g u) ns (fun _ h => h) h

theorem chainsLt_of_extra {g0 g1 : Graph} {isIndep : Ref → Bool} {root : Ref}
    (hw : ∀ a b, b ∈ g1 a → b ∈ g0 a ∨ (isIndep a = false ∧ isIndep b = true ∧ b ∈ g0 root))
    (hleaf : ∀ i ∈ g0 root, isIndep i = true → g0 i = []) {u n : Nat} (h : ChainsLt g0 u n) :
    ChainsLt g1 u (n + 1) := by
  induction n generalizing u with
  | zero => exact absurd h (not_chainsLt_zero _ _)
  | succ n ih =>
    rw [chainsLt_succ]
    intro v hv
    rcases hw u v hv with h' | ⟨_, h3, h4⟩
    · exact ih (chainsLt_succ.1 h v h')
    · rw [chainsLt_succ]
      intro x hx
      rcases hw v x hx with h' | ⟨h2', _, _⟩
      · rw [hleaf v h4 h3] at h'; simp at h'
      · rw [h3] at h2'; simp at h2'

theorem registerNodes_mono {g : Graph} {n : Nat} : ∀ {u : Ref} {ns ns' : List Ref},
    registerNodes g n u ns = some ns' → ∀ {m : Nat}, n ≤ m → registerNodes g m u ns = some ns' := by
  induction n with
  | zero => intro u ns ns' h; simp [registerNodes] at h
  | succ n ih =>
    intro u ns ns' h m hm
    obtain ⟨m, rfl⟩ : ∃ k, m = k + 1 := ⟨m - 1, by omega⟩
    simp only [registerNodes] at h ⊢
    generalize g u = l at h ⊢
    induction l generalizing ns with
    | nil => exact h
    | cons d l ihl =>
      rw [List.foldlM_cons] at h ⊢
      by_cases hd : d ∈ ns
      · rw [if_pos hd] at h ⊢
        exact ihl h
      · rw [if_neg hd] at h ⊢
        cases hr : registerNodes g n d (ns ++ [d]) with
        | none => rw [hr] at h; cases h
        | some r =>
          rw [hr] at h
          rw [ih hr (by omega)]
          exact ihl h

theorem sortExpressions_long (env : SetupEnv) (isIndep : Ref → Bool) (root : Ref) (deps : Graph)
    (N : Nat) (hord : ∀ u, Needs deps root u → OrderOk env.oi deps ((deps root).filter isIndep).length u)
    (hfin : ChainsLt deps root N) (hlong : ¬ ChainsLt deps root env.limit)
    (hnd : ∀ u, Reach deps root u → (deps u).Nodup)
    (hleaf : ∀ i, Needs deps root i → isIndep i = true → deps i = []) :
    sortExpressions env isIndep root (GState.fresh deps) = .error .recursionError := by
  unfold sortExpressions
  simp only [GState.fresh]
  cases hr : registerNodes deps env.limit root [] with
  | none => rfl
  | some nodes =>
    simp only
    have hmem : ∀ w, w ∈ nodes ↔ Needs deps root w := by
      obtain ⟨ns, h1, _, h2⟩ := registerNodes_nil (hfin.mono (le_max_left N env.limit))
      rw [registerNodes_mono hr (le_max_right N env.limit)] at h1
      obtain rfl := Option.some.inj h1
      exact h2
    have hsub : ∀ w ∈ nodes, Needs deps root w := fun w hw => (hmem w).1 hw
    have hroot : root ∉ nodes := fun h =>
      hfin.acyclic root Relation.ReflTransGen.refl (hsub root h)
    obtain ⟨e1, e2, e3⟩ := addIndeps_spec env.ov isIndep root nodes deps hroot
    set g1 := addIndeps env.ov isIndep root nodes deps
    have hc1 : ChainsLt g1 root (N + 1) := chainsLt_of_extra (isIndep := isIndep) (root := root)
      (fun a b hb => (e1 a b).1 hb |>.imp_right And.right) (fun i hi => hleaf i (.single hi)) hfin
    have h01 : ∀ v, Reach deps root v → Reach g1 root v := fun v hv =>
      Relation.ReflTransGen.mono (fun a b hab => (e1 a b).2 (Or.inl hab)) _ _ hv
    obtain ⟨r1, _, _⟩ := removeIndirectAll_indeps env.oi isIndep root deps g1 nodes hmem e1 hord
      (hnd root Relation.ReflTransGen.refl) hleaf
      (fun u hu => e2 u (hnd u (hsub u hu).to_reflTransGen))
      (fun u hu x hx => hc1.acyclic x
        (Relation.ReflTransGen.trans (h01 u (hsub u hu).to_reflTransGen) hx))
    have hnc : ¬ ChainsLt (removeIndirectAll env.oi nodes g1) root env.limit := by
      intro hc
      apply hlong
      intro l hl
      obtain ⟨l', h1, h2⟩ := isChain_expand (g' := removeIndirectAll env.oi nodes g1)
        (fun a b hab => (r1 a b).2 (Relation.TransGen.single ((e1 a b).2 (Or.inl hab)))) l root hl
      exact lt_of_le_of_lt h2 (hc l' h1)
    rw [addFwdEdges_none env.ov hnc]

end OM
