import Verif.Props.Shared

/-!
# C72: setting the groups of a session up again

OpenMDAO sets a child group up once more after the setup of the group around it. In a session whose groups share
nothing but inputs (`Session`, Props/Shared.lean) every one of these further setups succeeds and builds nothing.
-/

namespace OM
open Spec

/-- Further setups of groups set up in a session, in any order and any number of times. `nodes` is the dictionary
`Group.nodes` of the group that is set up. -/
inductive Again (isIndep : Ref → Bool) (done : List SetUp) (st : GState) : GState → Prop
  | start : Again isIndep done st st
  | next {st₁ st₂ : GState} (s : SetUp) (env : SetupEnv) (nodes l : List Ref) :
    Again isIndep done st st₁ → s ∈ done → (∀ v, v ∈ nodes ↔ Needs s.deps s.root v) →
    sortExpressions env isIndep s.root { st₁ with nodes := nodes } = .ok (st₂, l) →
    Again isIndep done st st₂

/-- Chains grow by at most one when the added edges lead to expressions without dependencies. -/
theorem chainsLt_leaves {g g' : Graph} (P : Ref → Prop)
    (h : ∀ u, P u → ∀ v ∈ g' u, (v ∈ g u ∧ P v) ∨ g' v = []) {u : Ref} {n : Nat} (hu : P u) (hc : ChainsLt g u n) :
    ChainsLt g' u (n + 1) := by
  induction n generalizing u with
  | zero => exact absurd hc (not_chainsLt_zero _ _)
  | succ n ih =>
    rw [chainsLt_succ]
    intro v hv
    rcases h u hu v hv with ⟨h1, h2⟩ | h'
    · exact ih h2 (chainsLt_succ.1 hc v h1)
    · rw [chainsLt_succ]
      intro x hx
      simp [Edge, h'] at hx

/-- What holds before and after each further setup. -/
structure Kept (isIndep : Ref → Bool) (st : GState) (done : List SetUp) : Prop where
  apart : ∀ s ∈ done, ∀ s' ∈ done, ¬ Needs s.deps s.root s'.root
  roots : ∀ s ∈ done, st.visits s.root = 1 ∧ st.dependents s.root = []
  root : ∀ s ∈ done, ∀ v ∈ st.deps s.root, Needs s.deps s.root v
  used : ∀ s ∈ done, ∀ v, Needs s.deps s.root v → st.dependents v ≠ []
  leaf : ∀ s ∈ done, ∀ i, Needs s.deps s.root i → isIndep i = true → st.deps i = []
  closed : ∀ s ∈ done, ∀ u, Needs s.deps s.root u → ∀ v ∈ st.deps u, ∃ s' ∈ done, Needs s'.deps s'.root v
  chains : ∀ s ∈ done, ∃ n, ChainsLt st.deps s.root n

theorem kept_again {isIndep : Ref → Bool} {st : GState} {done : List SetUp} (hk : Kept isIndep st done) {s : SetUp}
    (hs : s ∈ done) (env : SetupEnv) (nodes : List Ref) (hnodes : ∀ v, v ∈ nodes ↔ Needs s.deps s.root v) :
    (∀ n, ChainsLt st.deps s.root n → n < env.limit →
      ∃ st', sortExpressions env isIndep s.root { st with nodes := nodes } = .ok (st', [])) ∧
    ∀ st' l, sortExpressions env isIndep s.root { st with nodes := nodes } = .ok (st', l) → Kept isIndep st' done := by
  have hr : s.root ∉ nodes := fun h => hk.apart s hs s hs ((hnodes _).1 h)
  obtain ⟨e1, _, e3⟩ := addIndeps_spec env.ov isIndep s.root nodes st.deps hr
  set g1 := addIndeps env.ov isIndep s.root nodes st.deps with hg1
  set g2 := removeIndirectAll env.oi nodes g1 with hg2
  have hedge : ∀ a b, b ∈ g2 a → b ∈ st.deps a ∨
      (a ∈ nodes ∧ isIndep a = false ∧ isIndep b = true ∧ b ∈ st.deps s.root) := fun a b h =>
    (e1 a b).1 (removeIndirectAll_subset _ _ _ a b h)
  have hg2leaf : ∀ b, isIndep b = true → st.deps b = [] → g2 b = [] := by
    intro b hb h0
    rw [List.eq_nil_iff_forall_not_mem]
    intro x hx
    rcases hedge b x hx with h | ⟨_, h, _⟩
    · simp [h0] at h
    · simp [hb] at h
  have hgrow : ∀ a b, b ∈ g2 a → b ∈ st.deps a ∨ g2 b = [] := by
    intro a b h
    rcases hedge a b h with h' | ⟨h1, h2, h3, h4⟩
    · exact Or.inl h'
    · exact Or.inr (hg2leaf b h3 (hk.leaf s hs b (hk.root s hs b h4) h3))
  have hchain : ∀ u n, ChainsLt st.deps u n → ChainsLt g2 u (n + 1) := fun u n h =>
    chainsLt_leaves (fun _ => True) (fun u _ v hv => (hgrow u v hv).imp (fun h => ⟨h, trivial⟩) id) trivial h
  -- everything reachable from the root is the root or needed by some group
  have hin : ∀ w, Reach g2 s.root w → w = s.root ∨ ∃ s' ∈ done, Needs s'.deps s'.root w := by
    intro w hw
    induction hw with
    | refl => exact Or.inl rfl
    | @tail b c _ h ih =>
      refine Or.inr ?_
      rcases hedge b c h with h' | ⟨_, _, _, h'⟩
      · rcases ih with rfl | ⟨s', hs', ih⟩
        · exact ⟨s, hs, hk.root s hs c h'⟩
        · exact hk.closed s' hs' b ih c h'
      · exact ⟨s, hs, hk.root s hs c h'⟩
  constructor
  · intro n hn hlim
    have key : ∃ r, sortExpressions env isIndep s.root { st with nodes := nodes } = .ok r := by
      unfold sortExpressions
      rw [registerNodes_all_known (by omega) fun v hv => (hnodes v).2 (hk.root s hs v hv)]
      simp only [← hg1, ← hg2]
      have hc2 : ChainsLt g2 s.root env.limit := (hchain _ _ hn).mono (by omega)
      obtain ⟨D, hD, hDm, _⟩ := addFwdEdges_spec env.ov (d := st.dependents) hc2
      obtain ⟨cost, hcost⟩ := dagCost_isSome st.cost hc2
      simp only [hD]
      rw [if_neg]
      · simp only [hcost]
        exact ⟨_, rfl⟩
      · rw [List.any_eq_true]
        rintro ⟨v, hv, h0⟩
        simp only [beq_iff_eq, List.length_eq_zero_iff] at h0
        obtain ⟨w, hw⟩ := List.exists_mem_of_ne_nil _ (hk.used s hs v ((hnodes v).1 hv))
        have := (hDm v w).2 (Or.inl hw)
        simp [h0] at this
    obtain ⟨⟨st', l⟩, h⟩ := key
    have := sortExpressions_stale env isIndep s.root { st with nodes := nodes } (hk.roots s hs).1 (hk.roots s hs).2 st' l h
    exact ⟨st', this ▸ h⟩
  · intro st' l h
    unfold sortExpressions at h
    by_cases hlim : 0 < env.limit
    swap
    · have : env.limit = 0 := by omega
      simp [this, registerNodes] at h
    rw [registerNodes_all_known hlim fun v hv => (hnodes v).2 (hk.root s hs v hv)] at h
    simp only [← hg1, ← hg2] at h
    by_cases hc : ChainsLt g2 s.root env.limit
    swap
    · simp [addFwdEdges_none env.ov hc] at h
    obtain ⟨D, hD, hDm, _⟩ := addFwdEdges_spec env.ov (d := st.dependents) hc
    simp only [hD] at h
    split at h
    · simp at h
    · split at h
      · simp at h
      · rename_i cost _
        simp only [Except.ok.injEq, Prod.mk.injEq] at h
        obtain ⟨rfl, -⟩ := h
        have hmem : ∀ a b, b ∈ sortAll cost env.reverse nodes g2 a ↔ b ∈ g2 a := fun a b =>
          (sortAll_perm cost env.reverse nodes g2 a).mem_iff
        have hDroot : ∀ s' ∈ done, D s'.root = [] := by
          intro s' hs'
          rw [List.eq_nil_iff_forall_not_mem]
          intro w hw
          rcases (hDm _ w).1 hw with h' | ⟨h1, h2⟩
          · simp [(hk.roots s' hs').2] at h'
          · rcases hin s'.root (h1.tail h2) with h3 | ⟨s'', h3, h4⟩
            · rw [h3] at h2
              exact hc.acyclic s.root Relation.ReflTransGen.refl (Relation.TransGen.tail' h1 h2)
            · exact hk.apart s'' h3 s' hs' h4
        have hvis : ∀ n, (topoIter (sortAll cost env.reverse nodes g2) D n ⟨[s.root], st.visits, []⟩).visits = st.visits := by
          intro n
          cases n with
          | zero => rfl
          | succ n =>
            have : topoStep (sortAll cost env.reverse nodes g2) D ⟨[s.root], st.visits, []⟩ = some ⟨[], st.visits, []⟩ := by
              simp [topoStep, hDroot s hs, (hk.roots s hs).1]
            simp only [topoIter, this, topoIter_nil]
        refine ⟨hk.apart, fun s' hs' => ?_, fun s' hs' v hv => ?_, fun s' hs' v hv => ?_, fun s' hs' i hi hind => ?_,
          fun s' hs' u hu v hv => ?_, fun s' hs' => ?_⟩
        · exact ⟨by simp only [hvis]; exact (hk.roots s' hs').1, hDroot s' hs'⟩
        · rcases hedge _ v ((hmem _ v).1 hv) with h' | ⟨h1, _⟩
          · exact hk.root s' hs' v h'
          · exact absurd ((hnodes _).1 h1) (hk.apart s hs s' hs')
        · obtain ⟨w, hw⟩ := List.exists_mem_of_ne_nil _ (hk.used s' hs' v hv)
          exact List.ne_nil_of_mem ((hDm v w).2 (Or.inl hw))
        · have := hg2leaf i hind (hk.leaf s' hs' i hi hind)
          have hp := sortAll_perm cost env.reverse nodes g2 i
          rw [this] at hp
          exact hp.eq_nil
        · rcases hedge u v ((hmem u v).1 hv) with h' | ⟨_, _, _, h'⟩
          · exact hk.closed s' hs' u hu v h'
          · exact ⟨s, hs, hk.root s hs v h'⟩
        · obtain ⟨n, hn⟩ := hk.chains s' hs'
          exact ⟨n + 1, (hchain _ n hn).of_edge_imp fun a b hab => (hmem a b).1 hab⟩

theorem session_kept {isIndep : Ref → Bool} {isInput : Ref → Prop} {st : GState} {done : List SetUp}
    (h : Session isIndep isInput st done) : Kept isIndep st done := by
  induction h with
  | start deps => exact ⟨by simp, by simp, by simp, by simp, by simp, by simp, by simp⟩
  | @next st st' done env deps root l hses hwf hagree hroots hleaf hx hy ih =>
    have hset := session_settled hses
    have hset' := session_settled (Session.next env deps root l hses hwf hagree hroots hleaf hx hy)
    obtain ⟨hord, ⟨n, hn, hlim⟩, hnd, hi⟩ := hwf
    have hac := hn.acyclic
    have hd0 : st.dependents root = [] := by
      rw [List.eq_nil_iff_forall_not_mem]
      intro u hu
      obtain ⟨_, s, hs', _, h⟩ := hset.old root u hu
      exact (hroots s hs').1 h.to_reflTransGen
    obtain ⟨st₁, l₁, g1, i1, i2, -, -, -, -, -, -, -, i10, i11, i12, i13, i14⟩ :=
      sortExpressions_shared env isIndep root deps st.dependents st.visits st.cost n hord hn hlim hnd hi
        hset.nodup (fun v hv => hset.visits v fun s hs' e => (hroots s hs').2 (e ▸ hv)) hd0
    rw [i1] at hy
    simp only [Except.ok.injEq, Prod.mk.injEq] at hy
    obtain ⟨rfl, -⟩ := hy
    have hreach : ∀ u v, Reach deps root u → v ∈ st₁.deps u → Needs deps root v := by
      intro u v hu hv
      rcases (i2 u v).1 (i11 u v hv) with h | ⟨_, _, _, h⟩
      · exact Relation.TransGen.tail' hu h
      · exact Relation.TransGen.single h
    -- the edges of what the earlier groups use: as before, or from a shared input to an independent variable
    have hold : ∀ s ∈ done, ∀ u, Reach s.deps s.root u → ∀ v ∈ st₁.deps u, v ∈ st.deps u ∨
        (Needs deps root u ∧ isIndep u = false ∧ isIndep v = true ∧ v ∈ deps root) := by
      intro s hs u hu v hv
      by_cases hur : Needs deps root u
      · rcases (i2 u v).1 (i11 u v hv) with h | ⟨_, h2, h3, h4⟩
        · rw [hagree s hs u hu] at h
          exact Or.inl h
        · exact Or.inr ⟨hur, h2, h3, h4⟩
      · rw [i13 u hur, hagree s hs u hu] at hv
        exact Or.inl hv
    have hleaf₁ : ∀ i, Needs deps root i → isIndep i = true → st₁.deps i = [] := by
      intro i hin hind
      rw [List.eq_nil_iff_forall_not_mem]
      intro x hx
      rcases (i2 i x).1 (i11 i x hx) with h | ⟨_, h, _⟩
      · simp [hi i hin hind] at h
      · simp [hind] at h
    refine ⟨?_, hset'.roots, ?_, ?_, ?_, ?_, ?_⟩
    · intro s hs s' hs' hns
      rcases List.mem_cons.1 hs with rfl | hs <;> rcases List.mem_cons.1 hs' with rfl | hs'
      · exact hac root .refl hns
      · exact (hroots s' hs').2 hns.to_reflTransGen
      · exact (hroots s hs).1 hns.to_reflTransGen
      · exact ih.apart s hs s' hs' hns
    · intro s hs v hv
      rcases List.mem_cons.1 hs with rfl | hs
      · exact hreach root v .refl hv
      · rcases hold s hs s.root .refl v hv with h | ⟨h, _⟩
        · exact ih.root s hs v h
        · exact absurd h.to_reflTransGen (hroots s hs).2
    · intro s hs v hv
      rcases List.mem_cons.1 hs with rfl | hs
      · have hv' : Needs st₁.deps root v := (i12 root v).2 ((i14 v).2 hv)
        obtain ⟨w, hw, hwv⟩ := Relation.TransGen.tail'_iff.1 hv'
        have hwr : Reach deps root w := by
          rcases Relation.reflTransGen_iff_eq_or_transGen.1 hw with h | h
          · exact h ▸ .refl
          · exact ((i14 w).1 ((i12 root w).1 h)).to_reflTransGen
        exact List.ne_nil_of_mem ((i10 v w).2 (Or.inr ⟨hwr, hwv⟩))
      · obtain ⟨w, hw⟩ := List.exists_mem_of_ne_nil _ (ih.used s hs v hv)
        exact List.ne_nil_of_mem ((i10 v w).2 (Or.inl hw))
    · intro s hs i hin hind
      rcases List.mem_cons.1 hs with rfl | hs
      · exact hleaf₁ i hin hind
      · rw [List.eq_nil_iff_forall_not_mem]
        intro x hx
        rcases hold s hs i hin.to_reflTransGen x hx with h | ⟨_, h, _⟩
        · simp [ih.leaf s hs i hin hind] at h
        · simp [hind] at h
    · intro s hs u hu v hv
      rcases List.mem_cons.1 hs with rfl | hs
      · exact ⟨_, List.mem_cons_self, hreach u v hu.to_reflTransGen hv⟩
      · rcases hold s hs u hu.to_reflTransGen v hv with h | ⟨_, _, _, h⟩
        · obtain ⟨s', hs', h'⟩ := ih.closed s hs u hu v h
          exact ⟨s', List.mem_cons_of_mem _ hs', h'⟩
        · exact ⟨⟨deps, root, l⟩, by simp, Relation.TransGen.single h⟩
    · intro s hs
      rcases List.mem_cons.1 hs with rfl | hs
      · have hw : WithIndeps deps isIndep root g1 := i2
        have hc1 : ChainsLt g1 root (n + 1) := chainsLt_withIndeps hw (fun i h => hi i (.single h)) hn
        exact ⟨n + 1, hc1.of_edge_imp fun a b h => i11 a b h⟩
      · obtain ⟨m, hm⟩ := ih.chains s hs
        refine ⟨m + 1, chainsLt_leaves (fun u => ∃ s ∈ done, Reach s.deps s.root u) ?_ ⟨s, hs, .refl⟩ hm⟩
        rintro u ⟨s', hs', hu⟩ v hv
        rcases hold s' hs' u hu v hv with h | ⟨_, _, h3, h4⟩
        · refine Or.inl ⟨h, ?_⟩
          rcases Relation.reflTransGen_iff_eq_or_transGen.1 hu with rfl | hu
          · exact ⟨s', hs', (ih.root s' hs' v h).to_reflTransGen⟩
          · obtain ⟨s'', hs'', h'⟩ := ih.closed s' hs' u hu v h
            exact ⟨s'', hs'', h'.to_reflTransGen⟩
        · exact Or.inr (hleaf₁ v (.single h4) h3)

/-- **C72.** After groups that share nothing but inputs have been set up, any of them can be set up again, after any
further setups of any of them: the chains of dependencies below its root are bounded, every setup whose recursion
limit exceeds that bound ends without an exception, and it builds nothing. -/
theorem c72_again_accepted {isIndep : Ref → Bool} {isInput : Ref → Prop} {st st' : GState} {done : List SetUp}
    (h : Session isIndep isInput st done) (ha : Again isIndep done st st') (s : SetUp) (hs : s ∈ done) :
    (∃ n, ChainsLt st'.deps s.root n) ∧
    ∀ env nodes n, (∀ v, v ∈ nodes ↔ Needs s.deps s.root v) → ChainsLt st'.deps s.root n → n < env.limit →
      execOrder env isIndep s.root { st' with nodes := nodes } = .ok [] := by
  have hk : Kept isIndep st' done := by
    induction ha with
    | start => exact session_kept h
    | next s₁ env nodes l _ hs₁ hn he ih => exact (kept_again ih hs₁ env nodes hn).2 _ _ he
  refine ⟨hk.chains s hs, fun env nodes n hn hc hl => ?_⟩
  obtain ⟨st₂, e⟩ := (kept_again hk hs env nodes hn).1 n hc hl
  simp [execOrder, e, Except.map]

/-- The groups of `inputs_session`: the second block is set up again, after that the first. -/
example : ∃ st st₁, Session (fun _ => false) (· = 3) st
      [⟨inputsDeps, 0, [7, 8, 3, 6]⟩, ⟨inputsDeps, 2, [3, 5]⟩, ⟨inputsDeps, 1, [3, 4]⟩] ∧
    Again (fun _ => false) [⟨inputsDeps, 0, [7, 8, 3, 6]⟩, ⟨inputsDeps, 2, [3, 5]⟩, ⟨inputsDeps, 1, [3, 4]⟩] st st₁ ∧
    ∃ k, ∀ env : SetupEnv, k < env.limit →
      execOrder env (fun _ => false) 1 { st₁ with nodes := [4, 3] } = .ok [] := by
  obtain ⟨st, hst⟩ := inputs_session
  have m2 : ∀ v, v ∈ [5, 3] ↔ Needs inputsDeps 2 v := by
    intro v
    constructor
    · intro hv
      have h5 : Needs inputsDeps 2 5 := .single (show 5 ∈ inputsDeps 2 by decide)
      simp only [List.mem_cons, List.not_mem_nil, or_false] at hv
      rcases hv with rfl | rfl
      · exact h5
      · exact h5.tail (show 3 ∈ inputsDeps 5 by decide)
    · intro hv
      obtain ⟨w, hw, hv⟩ := Relation.TransGen.tail'_iff.1 hv
      have := reach_mem [2, 3, 5] (by decide) (by decide) hw
      simp only [List.mem_cons, List.not_mem_nil, or_false] at this
      rcases this with rfl | rfl | rfl
      · exact (show ∀ v ∈ inputsDeps 2, v ∈ [5, 3] by decide) v hv
      · exact (show ∀ v ∈ inputsDeps 3, v ∈ [5, 3] by decide) v hv
      · exact (show ∀ v ∈ inputsDeps 5, v ∈ [5, 3] by decide) v hv
  have m1 : ∀ v, v ∈ [4, 3] ↔ Needs inputsDeps 1 v := by
    intro v
    constructor
    · intro hv
      have h4 : Needs inputsDeps 1 4 := .single (show 4 ∈ inputsDeps 1 by decide)
      simp only [List.mem_cons, List.not_mem_nil, or_false] at hv
      rcases hv with rfl | rfl
      · exact h4
      · exact h4.tail (show 3 ∈ inputsDeps 4 by decide)
    · intro hv
      obtain ⟨w, hw, hv⟩ := Relation.TransGen.tail'_iff.1 hv
      have := reach_mem [1, 3, 4] (by decide) (by decide) hw
      simp only [List.mem_cons, List.not_mem_nil, or_false] at this
      rcases this with rfl | rfl | rfl
      · exact (show ∀ v ∈ inputsDeps 1, v ∈ [4, 3] by decide) v hv
      · exact (show ∀ v ∈ inputsDeps 3, v ∈ [4, 3] by decide) v hv
      · exact (show ∀ v ∈ inputsDeps 4, v ∈ [4, 3] by decide) v hv
  obtain ⟨k, hk⟩ := (c72_again_accepted hst .start ⟨inputsDeps, 2, [3, 5]⟩ (by simp)).1
  obtain ⟨st₁, e⟩ := (kept_again (session_kept hst) (s := ⟨inputsDeps, 2, [3, 5]⟩) (by simp)
    { demoEnv with limit := k + 1 } [5, 3] m2).1 k hk (Nat.lt_succ_self k)
  have ha : Again (fun _ => false)
      [⟨inputsDeps, 0, [7, 8, 3, 6]⟩, ⟨inputsDeps, 2, [3, 5]⟩, ⟨inputsDeps, 1, [3, 4]⟩] st st₁ :=
    .next ⟨inputsDeps, 2, [3, 5]⟩ _ [5, 3] [] .start (by simp) m2 e
  obtain ⟨⟨k', hk'⟩, h⟩ := c72_again_accepted hst ha ⟨inputsDeps, 1, [3, 4]⟩ (by simp)
  exact ⟨st, st₁, hst, ha, k', fun env hl => h env [4, 3] k' m1 hk' hl⟩

end OM
