import Verif.Lemmas.Shared
import Verif.Lemmas.Resetup
import Verif.Props.Order

/-!
# Groups that share variables (C72)

`create_group` (group.py 397-422) runs the setup of the child group when its `with` block ends, before the setup of
the group around it. In the block the variables of the surrounding group are at hand, so that both groups may depend
on the same objects. The counters `times_visited` and the lists `dependents` of these objects are not reset.
-/

namespace OM
open Spec

/-! ## Any variables shared, one block -/

/-- **C72, refuted, and what holds.** A block described by `depsI` is set up. Whatever is described afterwards
(`depsO`), as long as the objects used in the block are left alone, the setup of the surrounding group succeeds, and:
an expression the block does not use is built there exactly once; an expression used by both is built in both groups
if nothing that depends on it in the surrounding group is used in the block; an expression of the block all of whose
dependents in the surrounding group belong to the block is built in the block only. The statement leaves out
independent variables of the surrounding group. -/
theorem c72_shared_partial {env env' : SetupEnv} {isIndep : Ref → Bool} {rI rO : Ref} {depsI : Graph}
    (hI : WellFormed env isIndep rI depsI) :
    ∃ st lI, sortExpressions env isIndep rI (GState.fresh depsI) = .ok (st, lI) ∧
      (∀ v, (Needs depsI rI v → lI.count v = 1) ∧ (¬ Needs depsI rI v → lI.count v = 0)) ∧
      ∀ depsO, (∀ v, Reach depsI rI v → depsO v = st.deps v) → WellFormed env' isIndep rO depsO →
        ¬ Reach depsI rI rO → ¬ Reach depsO rO rI →
        ∃ st' lO, sortExpressions env' isIndep rO { st with deps := depsO, nodes := [] } = .ok (st', lO) ∧
          (∀ v, ¬ Needs depsO rO v → lO.count v = 0) ∧
          ∀ v, Needs depsO rO v → (isIndep v = false ∨ v ∉ depsO rO) →
            (¬ Needs depsI rI v → lO.count v = 1) ∧
            ((∀ u, Needs depsO rO u → Needs depsO u v → ¬ Needs depsI rI u) → lO.count v = 1) ∧
            (Needs depsI rI v → (∀ u, Reach depsO rO u → v ∈ depsO u → Needs depsI rI u) → lO.count v = 0) := by
  obtain ⟨hord, ⟨n, hn, hlim⟩, hnd, hi⟩ := hI
  obtain ⟨st, lI, g1, i1, i2, i3, i4, -, i6, i7, i8, i9, i10, i11, i12, i13, i14⟩ :=
    sortExpressions_shared env isIndep rI depsI (fun _ => []) (fun _ => 0) (fun _ => 1) n hord hn hlim hnd hi
      (by simp) (by simp) rfl
  obtain ⟨j1, j2⟩ := i4 (fun _ => True) trivial (fun _ _ _ _ _ => trivial) (by simp)
  refine ⟨st, lI, i1, fun v => ⟨fun h => (j1 v trivial h).1,
    fun h => List.count_eq_zero_of_not_mem fun hm => h (i3 v hm)⟩, ?_⟩
  intro depsO hagree hO hrO hrI
  obtain ⟨hord', ⟨n', hn', hlim'⟩, hnd', hi'⟩ := hO
  have hacO := hn'.acyclic
  have hmemd : ∀ v u, u ∈ st.dependents v ↔ Reach depsI rI u ∧ v ∈ st.deps u := by
    intro v u
    rw [i10]
    simp
  have hreachI : ∀ u, Reach g1 rI u ↔ Reach depsI rI u := by
    intro u
    unfold Reach
    rw [Relation.reflTransGen_iff_eq_or_transGen, Relation.reflTransGen_iff_eq_or_transGen]
    exact or_congr_right (i14 u)
  have hstepI : ∀ u v, Reach depsI rI u → v ∈ st.deps u → Needs depsI rI v := fun u v hu hv =>
    (i14 v).1 (Relation.TransGen.tail' ((hreachI u).2 hu) (i11 u v hv))
  have hclosed : ∀ u v, Needs depsI rI u → Needs depsO u v → Needs depsI rI v := by
    intro u v hu huv
    induction huv with
    | single h =>
      exact hstepI _ _ hu.to_reflTransGen (by rw [← hagree _ hu.to_reflTransGen]; exact h)
    | tail _ h ih =>
      exact hstepI _ _ ih.to_reflTransGen (by rw [← hagree _ ih.to_reflTransGen]; exact h)
  have hvis : ∀ v, Reach depsO rO v → st.visits v = (st.dependents v).length := by
    intro v hv
    by_cases hvI : Needs depsI rI v
    · exact (j1 v trivial hvI).2
    · have hne : ¬ Reach depsI rI v := by
        intro h
        rcases Relation.reflTransGen_iff_eq_or_transGen.1 h with h | h
        · exact hrI (h ▸ hv)
        · exact hvI h
      have : st.dependents v = [] := by
        rw [List.eq_nil_iff_forall_not_mem]
        intro u hu
        obtain ⟨h1, h2⟩ := (hmemd v u).1 hu
        exact hvI (hstepI u v h1 h2)
      rw [i6 v hne, this]
      rfl
  obtain ⟨st', lO, gO, o1, o2, o3, o4, o5, -⟩ := sortExpressions_shared env' isIndep rO depsO st.dependents st.visits
    st.cost n' hord' hn' hlim' hnd' hi' i9 hvis (by
      rw [List.eq_nil_iff_forall_not_mem]
      intro u hu
      obtain ⟨h1, h2⟩ := (hmemd rO u).1 hu
      exact hrO (hstepI u rO h1 h2).to_reflTransGen)
  refine ⟨st', lO, o1, fun v hv => List.count_eq_zero_of_not_mem fun hm => hv (o3 v hm), ?_⟩
  -- edges to expressions that are not independent variables of the surrounding group
  have hedge : ∀ u v, v ∈ gO u → (isIndep v = false ∨ v ∉ depsO rO) → v ∈ depsO u := by
    intro u v h hv
    rcases (o2 u v).1 h with h | ⟨_, _, h3, h4⟩
    · exact h
    · rcases hv with hv | hv
      · simp [h3] at hv
      · exact absurd h4 hv
  have hnotleaf : ∀ u v, v ∈ depsO u → (isIndep u = false ∨ u ∉ depsO rO) := by
    intro u v h
    by_contra hc
    push Not at hc
    have := hi' u (.single hc.2) (by simpa using hc.1)
    simp [this] at h
  have hneeds : ∀ u v, Needs gO u v → (isIndep v = false ∨ v ∉ depsO rO) → Needs depsO u v := by
    intro u v h
    induction h with
    | single h => exact fun hv => Relation.TransGen.single (hedge _ _ h hv)
    | tail _ h ih =>
      intro hv
      have h' := hedge _ _ h hv
      exact (ih (hnotleaf _ _ h')).tail h'
  have hreachO : ∀ u v, Reach depsO rO u → v ∈ gO u → Needs depsO rO v := by
    intro u v hu hv
    rcases (o2 u v).1 hv with h | ⟨_, _, _, h⟩
    · exact Relation.TransGen.tail' hu h
    · exact Relation.TransGen.single h
  obtain ⟨w1, -⟩ := o4 (fun v => v = rO ∨ ∀ u, Needs depsO rO u → Needs gO u v → ¬ Needs depsI rI u) (Or.inl rfl)
    (by
      intro u v hu huv hw
      rcases hw with rfl | hw
      · exact absurd (hreachO u v hu huv) (hacO v Relation.ReflTransGen.refl)
      · exact Or.inr fun x hx hxu => hw x hx (hxu.tail huv))
    (by
      intro u v hu huv hw hd
      rcases hw with rfl | hw
      · exact absurd (hreachO u v hu huv) (hacO v Relation.ReflTransGen.refl)
      · obtain ⟨h1, -⟩ := (hmemd v u).1 hd
        rcases Relation.reflTransGen_iff_eq_or_transGen.1 hu with h | h
        · exact hrO (h ▸ h1)
        · rcases Relation.reflTransGen_iff_eq_or_transGen.1 h1 with h' | h'
          · exact hrI (h' ▸ hu)
          · exact hw u h (Relation.TransGen.single huv) h')
  intro v hv hvi
  refine ⟨fun hvI => (w1 v (Or.inr ?_) hv).1, fun htop => (w1 v (Or.inr ?_) hv).1, fun hvI hall => ?_⟩
  · exact fun u _ huv hu => hvI (hclosed u v hu (hneeds u v huv hvi))
  · exact fun u hu huv => htop u hu (hneeds u v huv hvi)
  · refine List.count_eq_zero_of_not_mem (o5 v hv fun u hu huv => ?_)
    have h := hedge u v huv hvi
    have hu' := (hall u hu h).to_reflTransGen
    exact (hmemd v u).2 ⟨hu', by rw [← hagree u hu']; exact h⟩

theorem exists_top {deps : Graph} {r : Ref} (P : Ref → Prop) (univ : List Ref)
    (huniv : ∀ v, Needs deps r v → v ∈ univ) (hac : AcyclicFrom deps r) {v : Ref} (hv : Needs deps r v) (hp : P v) :
    ∃ w, Needs deps r w ∧ (w = v ∨ Needs deps w v) ∧ P w ∧ ∀ u, Needs deps r u → Needs deps u w → ¬ P u := by
  classical
  suffices h : ∀ n v, (univ.filter fun a => decide (Needs deps a v)).length < n → Needs deps r v → P v →
      ∃ w, Needs deps r w ∧ (w = v ∨ Needs deps w v) ∧ P w ∧ ∀ u, Needs deps r u → Needs deps u w → ¬ P u from
    h _ v (Nat.lt_succ_self _) hv hp
  intro n
  induction n with
  | zero => intro v h; omega
  | succ n ih =>
    intro v hlen hv hp
    by_cases hc : ∀ u, Needs deps r u → Needs deps u v → ¬ P u
    · exact ⟨v, hv, Or.inl rfl, hp, hc⟩
    · push Not at hc
      obtain ⟨u, hu, huv, hpu⟩ := hc
      have hlt : (univ.filter fun a => decide (Needs deps a u)).length
          < (univ.filter fun a => decide (Needs deps a v)).length := by
        have hsub : (univ.filter fun a => decide (Needs deps a u)).Sublist
            (univ.filter fun a => decide (Needs deps a v)) :=
          List.monotone_filter_right _ fun a ha =>
            decide_eq_true (Relation.TransGen.trans (of_decide_eq_true ha) huv)
        rcases Nat.lt_or_ge (univ.filter fun a => decide (Needs deps a u)).length
          (univ.filter fun a => decide (Needs deps a v)).length with h | h
        · exact h
        · have heq := hsub.eq_of_length_le h
          have hm : u ∈ univ.filter fun a => decide (Needs deps a v) := by
            rw [List.mem_filter]
            exact ⟨huniv u hu, by simpa using huv⟩
          rw [← heq, List.mem_filter] at hm
          exact absurd (by simpa using hm.2) (hac u hu.to_reflTransGen)
      obtain ⟨w, h1, h2, h3, h4⟩ := ih u (by omega) hu hpu
      refine ⟨w, h1, Or.inr ?_, h3, h4⟩
      rcases h2 with rfl | h2
      · exact huv
      · exact h2.trans huv

/-- **C72, refuted for every pair of groups that share an expression.** Whenever an expression used in a block is also
used in the surrounding group, then it or an expression depending on it is built in both groups. -/
theorem c72_sharing_builds_twice {env env' : SetupEnv} {isIndep : Ref → Bool} {rI rO : Ref} {depsI : Graph}
    (hI : WellFormed env isIndep rI depsI) :
    ∃ st lI, sortExpressions env isIndep rI (GState.fresh depsI) = .ok (st, lI) ∧
      ∀ depsO, (∀ v, Reach depsI rI v → depsO v = st.deps v) → WellFormed env' isIndep rO depsO →
        ¬ Reach depsI rI rO → ¬ Reach depsO rO rI →
        ∃ st' lO, sortExpressions env' isIndep rO { st with deps := depsO, nodes := [] } = .ok (st', lO) ∧
          ∀ v, Needs depsI rI v → Needs depsO rO v → (isIndep v = false ∨ v ∉ depsO rO) →
            ∃ w, (w = v ∨ Needs depsO w v) ∧ lI.count w = 1 ∧ lO.count w = 1 := by
  obtain ⟨st, lI, h1, h2, h3⟩ := c72_shared_partial (env' := env') (rO := rO) hI
  refine ⟨st, lI, h1, fun depsO ha hO hr hr' => ?_⟩
  obtain ⟨st', lO, o1, -, o3⟩ := h3 depsO ha hO hr hr'
  refine ⟨st', lO, o1, fun v hvI hvO hvi => ?_⟩
  obtain ⟨n, hn, hlim⟩ := hO.chains
  obtain ⟨nodes, -, -, hmem⟩ := registerNodes_nil hn
  obtain ⟨w, w1, w2, w3, w4⟩ := exists_top (Needs depsI rI) nodes (fun v h => (hmem v).2 h) hn.acyclic hvO hvI
  refine ⟨w, w2, (h2 w).1 w3, ((o3 w w1 ?_).2.1 w4)⟩
  rcases w2 with rfl | w2
  · exact hvi
  · by_contra hc
    push Not at hc
    have := hO.indeps w (.single hc.2) (by simpa using hc.1)
    obtain ⟨c, hc, -⟩ := Relation.TransGen.head'_iff.1 w2
    simp [Edge, this] at hc

/-! ## Only inputs shared, any number of blocks -/

/-- What a setup that has ended saw and did: the dependencies described, the root, the order of execution. -/
structure SetUp where
  deps : Graph
  root : Ref
  order : List Ref

/-- Groups set up one after the other, each described by `deps` when its turn comes. What the earlier groups use is
left alone, and nothing but inputs without dependencies is used by more than one group. -/
inductive Session (isIndep : Ref → Bool) (isInput : Ref → Prop) : GState → List SetUp → Prop
  | start (deps : Graph) : Session isIndep isInput (GState.fresh deps) []
  | next {st st' : GState} {done : List SetUp} (env : SetupEnv) (deps : Graph) (root : Ref) (l : List Ref) :
    Session isIndep isInput st done → WellFormed env isIndep root deps →
    (∀ s ∈ done, ∀ v, Reach s.deps s.root v → deps v = st.deps v) →
    (∀ s ∈ done, ¬ Reach s.deps s.root root ∧ ¬ Reach deps root s.root) →
    (∀ s ∈ done, ∀ v, Needs s.deps s.root v → Needs deps root v → isInput v ∧ deps v = []) →
    execOrder env isIndep root { st with deps := deps, nodes := [] } = .ok l →
    sortExpressions env isIndep root { st with deps := deps, nodes := [] } = .ok (st', l.reverse) →
    Session isIndep isInput st' (⟨deps, root, l⟩ :: done)

/-- What holds between two setups. -/
structure Settled (st : GState) (done : List SetUp) : Prop where
  nodup : ∀ v, (st.dependents v).Nodup
  visits : ∀ v, (∀ s ∈ done, s.root ≠ v) → st.visits v = (st.dependents v).length
  roots : ∀ s ∈ done, st.visits s.root = 1 ∧ st.dependents s.root = []
  old : ∀ v, ∀ u ∈ st.dependents v, v ∈ st.deps u ∧ ∃ s ∈ done, Reach s.deps s.root u ∧ Needs s.deps s.root v

/-- One more setup. -/
theorem settled_next {isIndep : Ref → Bool} {isInput : Ref → Prop} {st : GState} {done : List SetUp}
    (hs : Settled st done) {env : SetupEnv} {deps : Graph} {root : Ref} (hwf : WellFormed env isIndep root deps)
    (hagree : ∀ s ∈ done, ∀ v, Reach s.deps s.root v → deps v = st.deps v)
    (hroots : ∀ s ∈ done, ¬ Reach s.deps s.root root ∧ ¬ Reach deps root s.root)
    (hleaf : ∀ s ∈ done, ∀ v, Needs s.deps s.root v → Needs deps root v → isInput v ∧ deps v = []) :
    ∃ st' l, sortExpressions env isIndep root { st with deps := deps, nodes := [] } = .ok (st', l) ∧
      (∀ v, (Needs deps root v → l.count v = 1) ∧ (¬ Needs deps root v → l.count v = 0)) ∧
      (∀ u v, Needs deps root u → Needs deps u v → Before l u v) ∧
      ∀ l', Settled st' (⟨deps, root, l'⟩ :: done) := by
  obtain ⟨hord, ⟨n, hn, hlim⟩, hnd, hi⟩ := hwf
  have hac := hn.acyclic
  have hd0 : st.dependents root = [] := by
    rw [List.eq_nil_iff_forall_not_mem]
    intro u hu
    obtain ⟨_, s, hs', _, h⟩ := hs.old root u hu
    exact (hroots s hs').1 h.to_reflTransGen
  obtain ⟨st', l, g1, i1, i2, i3, i4, -, i6, i7, i8, i9, i10, i11, i12, i13, i14⟩ :=
    sortExpressions_shared env isIndep root deps st.dependents st.visits st.cost n hord hn hlim hnd hi
      hs.nodup (fun v hv => hs.visits v fun s hs' e => (hroots s hs').2 (e ▸ hv)) hd0
  have hshared : ∀ u v, Reach deps root u → u ∈ st.dependents v → False := by
    intro u v hu hd
    obtain ⟨h1, s, hs', h2, h3⟩ := hs.old v u hd
    have hus : Needs s.deps s.root u := by
      rcases Relation.reflTransGen_iff_eq_or_transGen.1 h2 with h | h
      · exact absurd (h ▸ hu) (hroots s hs').2
      · exact h
    have hur : Needs deps root u := by
      rcases Relation.reflTransGen_iff_eq_or_transGen.1 hu with h | h
      · exact absurd (h ▸ h2) (hroots s hs').1
      · exact h
    have := (hleaf s hs' u hus hur).2
    rw [hagree s hs' u h2] at this
    simp [this] at h1
  obtain ⟨j1, j2⟩ := i4 (fun _ => True) trivial (fun _ _ _ _ _ => trivial) (fun u v hu _ _ => hshared u v hu)
  have hreach : ∀ u v, Reach deps root u → v ∈ st'.deps u → Needs deps root v := by
    intro u v hu hv
    rcases (i2 u v).1 (i11 u v hv) with h | ⟨_, _, _, h⟩
    · exact Relation.TransGen.tail' hu h
    · exact Relation.TransGen.single h
  refine ⟨st', l, i1, fun v => ⟨fun h => (j1 v trivial h).1,
    fun h => List.count_eq_zero_of_not_mem fun hm => h (i3 v hm)⟩, fun u v hu huv => j2 u v trivial hu
      (needs_mono (fun a b hab => Relation.TransGen.single ((i2 a b).2 (Or.inl hab))) huv), fun l' => ?_⟩
  refine ⟨i9, ?_, ?_, ?_⟩
  · intro v hv
    have hvr : root ≠ v := hv ⟨deps, root, l'⟩ (by simp)
    by_cases h : Needs deps root v
    · exact (j1 v trivial h).2
    · have hnr : ¬ Reach deps root v := by
        intro h'
        rcases Relation.reflTransGen_iff_eq_or_transGen.1 h' with h' | h'
        · exact hvr h'.symm
        · exact h h'
      rw [i6 v hnr, hs.visits v fun s hs' => hv s (List.mem_cons_of_mem _ hs')]
      apply List.Perm.length_eq
      rw [List.perm_ext_iff_of_nodup (hs.nodup v) (i9 v)]
      intro u
      rw [i10]
      constructor
      · exact Or.inl
      · rintro (h' | ⟨h1, h2⟩)
        · exact h'
        · exact absurd (hreach u v h1 h2) h
  · intro s hs'
    rcases List.mem_cons.1 hs' with rfl | hs'
    · exact ⟨i7, i8⟩
    · obtain ⟨h1, h2⟩ := hs.roots s hs'
      have h3 := (hroots s hs').2
      refine ⟨by rw [i6 _ h3, h1], ?_⟩
      rw [List.eq_nil_iff_forall_not_mem]
      intro u hu
      rcases (i10 _ u).1 hu with h | ⟨h4, h5⟩
      · simp [h2] at h
      · exact h3 (hreach u _ h4 h5).to_reflTransGen
  · intro v u hu
    rcases (i10 v u).1 hu with h | ⟨h1, h2⟩
    · obtain ⟨h1, s, hs', h2, h3⟩ := hs.old v u h
      refine ⟨?_, s, List.mem_cons_of_mem _ hs', h2, h3⟩
      by_cases hur : Needs deps root u
      · exact (hshared u v hur.to_reflTransGen h).elim
      · rw [i13 u hur, hagree s hs' u h2]
        exact h1
    · exact ⟨h2, ⟨deps, root, l'⟩, by simp, h1, hreach u v h1 h2⟩

theorem session_settled {isIndep : Ref → Bool} {isInput : Ref → Prop} {st : GState} {done : List SetUp}
    (h : Session isIndep isInput st done) : Settled st done := by
  induction h with
  | start deps => exact ⟨by simp [GState.fresh], by simp [GState.fresh], by simp, by simp [GState.fresh]⟩
  | next env deps root l _ hwf ha hr hl _ h2 ih =>
    obtain ⟨st₁, l₁, e, -, -, h⟩ := settled_next ih hwf ha hr hl
    rw [e] at h2
    simp only [Except.ok.injEq, Prod.mk.injEq] at h2
    exact h2.1 ▸ h l

/-- **C72.** The next group can always be set up. -/
theorem c72_inputs_accepted {isIndep : Ref → Bool} {isInput : Ref → Prop} {st : GState} {done : List SetUp}
    (h : Session isIndep isInput st done) {env : SetupEnv} {deps : Graph} {root : Ref}
    (hwf : WellFormed env isIndep root deps)
    (hagree : ∀ s ∈ done, ∀ v, Reach s.deps s.root v → deps v = st.deps v)
    (hroots : ∀ s ∈ done, ¬ Reach s.deps s.root root ∧ ¬ Reach deps root s.root)
    (hleaf : ∀ s ∈ done, ∀ v, Needs s.deps s.root v → Needs deps root v → isInput v ∧ deps v = []) :
    ∃ st' l, execOrder env isIndep root { st with deps := deps, nodes := [] } = .ok l ∧
      Session isIndep isInput st' (⟨deps, root, l⟩ :: done) := by
  obtain ⟨st', l, e, -, -, -⟩ := settled_next (session_settled h) hwf hagree hroots hleaf
  have h1 : execOrder env isIndep root { st with deps := deps, nodes := [] } = .ok l.reverse := by
    simp [execOrder, e, Except.map]
  exact ⟨st', l.reverse, h1, .next env deps root l.reverse h hwf hagree hroots hleaf h1 (by simpa using e)⟩

/-- **C72, for groups that share nothing but inputs.** In each of the groups every expression is executed after what it
depends on. Every expression that is not an input and that some group depends on is executed in exactly one of the
groups, and exactly once; no other expression is executed at all. -/
theorem c72_inputs {isIndep : Ref → Bool} {isInput : Ref → Prop} {st : GState} {done : List SetUp}
    (h : Session isIndep isInput st done) :
    (∀ s ∈ done, ∀ u v, Needs s.deps s.root u → Needs s.deps u v → Before s.order v u) ∧
    ∀ v, ¬ isInput v →
      ((∃ s ∈ done, Needs s.deps s.root v) → (done.map fun s => s.order.count v).sum = 1) ∧
      ((∀ s ∈ done, ¬ Needs s.deps s.root v) → (done.map fun s => s.order.count v).sum = 0) := by
  induction h with
  | start deps => exact ⟨by simp, fun v _ => ⟨by simp, by simp⟩⟩
  | @next st st' done env deps root l hs hwf ha hr hl h1 h2 ih =>
    obtain ⟨st₁, l₁, e, hc, ho, -⟩ := settled_next (session_settled hs) hwf ha hr hl
    rw [e] at h2
    simp only [Except.ok.injEq, Prod.mk.injEq] at h2
    obtain ⟨-, rfl⟩ := h2
    refine ⟨?_, fun v hv => ?_⟩
    · intro s hs' u v hu huv
      rcases List.mem_cons.1 hs' with rfl | hs'
      · simpa using (ho u v hu huv).reverse
      · exact ih.1 s hs' u v hu huv
    · have hcount : ∀ v, l.count v = l.reverse.count v := fun v => (List.count_reverse ..).symm
      simp only [List.map_cons, List.sum_cons, hcount]
      obtain ⟨c1, c2⟩ := hc v
      obtain ⟨d1, d2⟩ := ih.2 v hv
      by_cases hn : Needs deps root v
      · have hno : ∀ s ∈ done, ¬ Needs s.deps s.root v := fun s hs' h' => hv (hl s hs' v h' hn).1
        refine ⟨fun _ => ?_, fun h => absurd hn (h ⟨deps, root, l⟩ (by simp))⟩
        rw [c1 hn, d2 hno]
      · refine ⟨?_, fun h => ?_⟩
        · rintro ⟨s, hs', h'⟩
          rcases List.mem_cons.1 hs' with rfl | hs'
          · exact absurd h' hn
          · rw [c2 hn, d1 ⟨s, hs', h'⟩]
        · rw [c2 hn, d2 fun s hs' => h s (List.mem_cons_of_mem _ hs')]

/-- **C72.** Setting any of the groups up again, as OpenMDAO does with the child groups after the setup of the group
around them, builds nothing, whatever that group has recorded as its nodes, if it ends without an exception. -/
theorem c72_again {isIndep : Ref → Bool} {isInput : Ref → Prop} {st : GState} {done : List SetUp}
    (h : Session isIndep isInput st done) (s : SetUp) (hs : s ∈ done) (env : SetupEnv) (nodes : List Ref) (l : List Ref)
    (he : execOrder env isIndep s.root { st with nodes := nodes } = .ok l) : l = [] := by
  obtain ⟨h1, h2⟩ := (session_settled h).roots s hs
  unfold execOrder at he
  cases hc : sortExpressions env isIndep s.root { st with nodes := nodes } with
  | error e => simp [hc, Except.map] at he
  | ok r =>
    obtain ⟨st', l'⟩ := r
    simp only [hc, Except.map, Except.ok.injEq] at he
    rw [← he, sortExpressions_stale env isIndep s.root { st with nodes := nodes } h1 h2 st' l' hc]
    rfl

/-! ## Non-trivial groups meeting the conditions -/

/-- The state a setup leaves. -/
def stateAfter (env : SetupEnv) (isIndep : Ref → Bool) (root : Ref) (st : GState) : GState :=
  match sortExpressions env isIndep root st with
  | .ok r => r.1
  | .error _ => st

theorem stateAfter_eq {env : SetupEnv} {isIndep : Ref → Bool} {root : Ref} {st : GState} {l : List Ref}
    (h : execOrder env isIndep root st = .ok l) :
    sortExpressions env isIndep root st = .ok (stateAfter env isIndep root st, l.reverse) := by
  unfold execOrder at h
  unfold stateAfter
  cases hc : sortExpressions env isIndep root st with
  | error e => simp [hc, Except.map] at h
  | ok r =>
    simp only [hc, Except.map, Except.ok.injEq] at h
    simp [← h]

/-- `2` is an input, `3 = f(2)`; in the block `4 = g(3)` is registered. -/
def blockDeps : Graph := ofAdj [[], [4], [], [2], [3], [], []]

/-- The group around the block: `5 = h(3)` is registered, `6` is the block as a subsystem. -/
def aroundDeps : Graph := ofAdj [[6, 5], [4], [], [2], [3], [3], []]

theorem wellFormed_ofAdj (adj : List (List Ref)) (root : Ref) (hr : root < adj.length) (rank : Ref → Nat)
    (h1 : ∀ u < adj.length, ∀ v ∈ ofAdj adj u, v < adj.length ∧ rank v < rank u)
    (h2 : ∀ u < adj.length, (ofAdj adj u).length ≤ 8 ∧ (ofAdj adj u).Nodup) (hlim : adj.length < 1000) :
    WellFormed demoEnv (fun _ => false) root (ofAdj adj) := by
  have hle : ∀ v, Reach (ofAdj adj) root v → v < adj.length := fun v hv =>
    ofAdj_reach hr (fun u hu v hv => (h1 u hu v hv).1) hv
  refine wellFormed_of_acyclic (List.range adj.length) (fun v hv => by simpa using hle v hv) (by simpa [demoEnv] using hlim)
    (ofAdj_acyclic rank (fun u hu v hv => (h1 u hu v hv).2) root) 8 pyOrder_ascending ?_ ?_ ?_
  · intro u hu
    simpa using (h2 u (hle u hu.to_reflTransGen)).1
  · exact fun u hu => (h2 u (hle u hu)).2
  · simp

theorem reach_mem {deps : Graph} {r : Ref} (S : List Ref) (hr : r ∈ S) (h : ∀ u ∈ S, ∀ v ∈ deps u, v ∈ S) {v : Ref}
    (hv : Reach deps r v) : v ∈ S := by
  induction hv with
  | refl => exact hr
  | tail _ h' ih => exact h _ ih _ h'

theorem blockDeps_wellFormed : WellFormed demoEnv (fun _ => false) 1 blockDeps :=
  wellFormed_ofAdj _ 1 (by decide) (fun u => [9, 9, 0, 1, 2, 2, 0].getD u 0) (by decide) (by decide) (by decide)

theorem aroundDeps_wellFormed : WellFormed demoEnv (fun _ => false) 0 aroundDeps :=
  wellFormed_ofAdj _ 0 (by decide) (fun u => [9, 9, 0, 1, 2, 2, 0].getD u 0) (by decide) (by decide) (by decide)

/-- **C72, refuted.** Two groups meeting the conditions of `c72_sharing_builds_twice`: the expression `3` is executed
in the block and in the group around it. -/
theorem c72_violated :
    WellFormed demoEnv (fun _ => false) 1 blockDeps ∧ WellFormed demoEnv (fun _ => false) 0 aroundDeps ∧
    execOrder demoEnv (fun _ => false) 1 (GState.fresh blockDeps) = .ok [2, 3, 4] ∧
    (∀ v, Reach blockDeps 1 v → aroundDeps v = (stateAfter demoEnv (fun _ => false) 1 (GState.fresh blockDeps)).deps v) ∧
    ¬ Reach blockDeps 1 0 ∧ ¬ Reach aroundDeps 0 1 ∧
    execOrder demoEnv (fun _ => false) 0
      { stateAfter demoEnv (fun _ => false) 1 (GState.fresh blockDeps) with deps := aroundDeps, nodes := [] }
      = .ok [6, 3, 5] := by
  have h1 : ∀ v, Reach blockDeps 1 v → v ∈ [1, 2, 3, 4] := fun v hv =>
    reach_mem [1, 2, 3, 4] (by decide) (by decide) hv
  have h0 : ∀ v, Reach aroundDeps 0 v → v ∈ [0, 2, 3, 5, 6] := fun v hv =>
    reach_mem [0, 2, 3, 5, 6] (by decide) (by decide) hv
  refine ⟨blockDeps_wellFormed, aroundDeps_wellFormed, by decide, ?_, fun h => ?_, fun h => ?_, by decide⟩
  · intro v hv
    have := h1 v hv
    simp only [List.mem_cons, List.not_mem_nil, or_false] at this
    rcases this with rfl | rfl | rfl | rfl <;> decide
  · exact absurd (h1 _ h) (by decide)
  · exact absurd (h0 _ h) (by decide)

/-- The expression `3` is needed in both groups. -/
example : Needs blockDeps 1 3 ∧ Needs aroundDeps 0 3 :=
  ⟨(Relation.TransGen.single (show 4 ∈ blockDeps 1 by decide)).tail (show 3 ∈ blockDeps 4 by decide),
   (Relation.TransGen.single (show 5 ∈ aroundDeps 0 by decide)).tail (show 3 ∈ aroundDeps 5 by decide)⟩

/-- Two blocks, with roots `1` and `2`, and the group around them, with root `0`, use the input `3`:
`4 = f(3)` in the first block, `5 = g(3)` in the second, `6 = h(3)` around them; `7` and `8` are the subsystems. -/
def inputsDeps : Graph := ofAdj [[7, 8, 6], [4], [5], [], [3], [3], [3], [], [7]]

theorem inputs_session : ∃ st, Session (fun _ => false) (· = 3) st
    [⟨inputsDeps, 0, [7, 8, 3, 6]⟩, ⟨inputsDeps, 2, [3, 5]⟩, ⟨inputsDeps, 1, [3, 4]⟩] := by
  have hwf : ∀ r : Ref, r < 9 → WellFormed demoEnv (fun _ => false) r inputsDeps := fun r hr =>
    wellFormed_ofAdj _ r hr (fun u => [9, 9, 9, 0, 1, 1, 1, 0, 1].getD u 0) (by decide) (by decide) (by decide)
  have h1 : ∀ v, Reach inputsDeps 1 v → v ∈ [1, 3, 4] := fun v hv => reach_mem [1, 3, 4] (by decide) (by decide) hv
  have h2 : ∀ v, Reach inputsDeps 2 v → v ∈ [2, 3, 5] := fun v hv => reach_mem [2, 3, 5] (by decide) (by decide) hv
  have h0 : ∀ v, Reach inputsDeps 0 v → v ∈ [0, 3, 6, 7, 8] := fun v hv =>
    reach_mem [0, 3, 6, 7, 8] (by decide) (by decide) hv
  have s1 : Session (fun _ => false) (· = 3) _ [⟨inputsDeps, 1, [3, 4]⟩] :=
    .next demoEnv inputsDeps 1 [3, 4] (.start inputsDeps) (hwf 1 (by decide)) (by simp) (by simp) (by simp)
      (by decide) (stateAfter_eq (by decide))
  set a1 := stateAfter demoEnv (fun _ => false) 1
    { GState.fresh inputsDeps with deps := inputsDeps, nodes := [] } with ha1
  have s2 : Session (fun _ => false) (· = 3)
      (stateAfter demoEnv (fun _ => false) 2 { a1 with deps := inputsDeps, nodes := [] }) [⟨inputsDeps, 2, [3, 5]⟩, ⟨inputsDeps, 1, [3, 4]⟩] := by
    refine .next demoEnv inputsDeps 2 [3, 5] s1 (hwf 2 (by decide)) ?_ ?_ ?_ (by decide) (stateAfter_eq (by decide))
    · intro s hs v hv
      rw [List.mem_singleton] at hs
      subst hs
      have := h1 v hv
      simp only [List.mem_cons, List.not_mem_nil, or_false] at this
      rcases this with rfl | rfl | rfl <;> decide
    · intro s hs
      rw [List.mem_singleton] at hs
      subst hs
      exact ⟨fun h => absurd (h1 _ h) (by decide), fun h => absurd (h2 _ h) (by decide)⟩
    · intro s hs v hv hv'
      rw [List.mem_singleton] at hs
      subst hs
      have a := h1 v hv.to_reflTransGen
      have b := h2 v hv'.to_reflTransGen
      simp only [List.mem_cons, List.not_mem_nil, or_false] at a b
      have : v = 3 := by omega
      subst this
      exact ⟨rfl, by decide⟩
  set a2 := stateAfter demoEnv (fun _ => false) 2 { a1 with deps := inputsDeps, nodes := [] } with ha2
  refine ⟨stateAfter demoEnv (fun _ => false) 0 { a2 with deps := inputsDeps, nodes := [] },
    .next demoEnv inputsDeps 0 [7, 8, 3, 6] s2 (hwf 0 (by decide)) ?_ ?_ ?_ (by decide)
    (stateAfter_eq (by decide))⟩
  · intro s hs v hv
    simp only [List.mem_cons, List.not_mem_nil, or_false] at hs
    rcases hs with rfl | rfl
    · have := h2 v hv
      simp only [List.mem_cons, List.not_mem_nil, or_false] at this
      rcases this with rfl | rfl | rfl <;> decide
    · have := h1 v hv
      simp only [List.mem_cons, List.not_mem_nil, or_false] at this
      rcases this with rfl | rfl | rfl <;> decide
  · intro s hs
    simp only [List.mem_cons, List.not_mem_nil, or_false] at hs
    rcases hs with rfl | rfl
    · exact ⟨fun h => absurd (h2 _ h) (by decide), fun h => absurd (h0 _ h) (by decide)⟩
    · exact ⟨fun h => absurd (h1 _ h) (by decide), fun h => absurd (h0 _ h) (by decide)⟩
  · intro s hs v hv hv'
    have b := h0 v hv'.to_reflTransGen
    simp only [List.mem_cons, List.not_mem_nil, or_false] at hs
    have : v = 3 := by
      rcases hs with rfl | rfl
      · have a := h2 v hv.to_reflTransGen
        simp only [List.mem_cons, List.not_mem_nil, or_false] at a b
        omega
      · have a := h1 v hv.to_reflTransGen
        simp only [List.mem_cons, List.not_mem_nil, or_false] at a b
        omega
    subst this
    exact ⟨rfl, by decide⟩

end OM
