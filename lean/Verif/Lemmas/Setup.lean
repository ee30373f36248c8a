import Verif.Model.Setup
import Verif.Lemmas.Topo

/-! # Lemmas about the graph passes of `Group.setup` -/

namespace OM
open Spec

/-! ## Chains -/

theorem not_chainsLt_zero (g : Graph) (u : Ref) : ¬ ChainsLt g u 0 := by
  intro h
  have := h [] (by simp)
  simp at this

theorem chainsLt_succ {g : Graph} {u : Ref} {n : Nat} :
    ChainsLt g u (n + 1) ↔ ∀ v ∈ g u, ChainsLt g v n := by
  constructor
  · intro h v hv l hl
    have := h (v :: l) (by
      rw [List.isChain_cons_cons]
      exact ⟨hv, hl⟩)
    simpa using this
  · intro h l hl
    cases l with
    | nil => simp
    | cons v t =>
      rw [List.isChain_cons_cons] at hl
      have := h v hl.1 t hl.2
      simp only [List.length_cons]
      omega

theorem Spec.ChainsLt.step {g : Graph} {u v : Ref} {n : Nat} (h : ChainsLt g u n) (hv : v ∈ g u) :
    ChainsLt g v (n - 1) := by
  cases n with
  | zero => exact absurd h (not_chainsLt_zero g u)
  | succ n => exact chainsLt_succ.1 h v hv

theorem Spec.ChainsLt.mono {g : Graph} {u : Ref} {m n : Nat} (h : ChainsLt g u m) (hmn : m ≤ n) :
    ChainsLt g u n := fun l hl => lt_of_lt_of_le (h l hl) hmn

theorem Spec.ChainsLt.reach {g : Graph} {u v : Ref} {n : Nat} (h : ChainsLt g u n)
    (hv : Reach g u v) : ChainsLt g v n := by
  induction hv with
  | refl => exact h
  | tail _ hbc ih => exact (ih.step hbc).mono (Nat.sub_le _ _)

theorem Spec.ChainsLt.of_edge_imp {g g' : Graph} {u : Ref} {n : Nat} (h : ChainsLt g u n)
    (hsub : ∀ a b, Edge g' a b → Edge g a b) : ChainsLt g' u n :=
  fun l hl => h l (hl.imp (fun a b hab => hsub a b hab))

theorem Spec.ChainsLt.acc {g : Graph} {u : Ref} {n : Nat} (h : ChainsLt g u n) :
    Acc (fun v u => Edge g u v) u := by
  induction n generalizing u with
  | zero => exact absurd h (not_chainsLt_zero g u)
  | succ n ih => exact Acc.intro u fun v hv => ih (chainsLt_succ.1 h v hv)

theorem not_needs_self_of_acc {g : Graph} {u : Ref} (h : Acc (fun v u => Edge g u v) u) :
    ¬ Needs g u u := by
  have h' : Acc (fun v u => Needs g u v) u := by
    have := Acc.transGen h
    refine Subrelation.accessible ?_ this
    intro a b hab
    exact (Relation.transGen_swap).2 hab
  clear h
  induction h' with
  | intro x _ ih =>
    intro hx
    exact ih x hx hx

theorem Spec.ChainsLt.acyclic {g : Graph} {u : Ref} {n : Nat} (h : ChainsLt g u n) :
    AcyclicFrom g u := fun _ hv => not_needs_self_of_acc (h.reach hv).acc

theorem isChain_nodup {g : Graph} {u : Ref} {l : List Ref} (hac : AcyclicFrom g u)
    (hl : List.IsChain (Edge g) (u :: l)) : (u :: l).Nodup := by
  have key : ∀ (l : List Ref) (x : Ref), List.IsChain (Edge g) (x :: l) → ∀ y ∈ l, Needs g x y := by
    intro l
    induction l with
    | nil => intro x _ y hy; simp at hy
    | cons a t ih =>
      intro x hx y hy
      rw [List.isChain_cons_cons] at hx
      rcases List.mem_cons.1 hy with h | h
      · exact h ▸ Relation.TransGen.single hx.1
      · exact Relation.TransGen.head hx.1 (ih a hx.2 y h)
  have main : ∀ (l : List Ref) (x : Ref), Reach g u x → List.IsChain (Edge g) (x :: l) →
      (x :: l).Nodup := by
    intro l
    induction l with
    | nil => intro x _ _; simp
    | cons a t ih =>
      intro x hrx hx
      have hx' := hx
      rw [List.isChain_cons_cons] at hx
      rw [List.nodup_cons]
      refine ⟨fun hm => hac x hrx (key _ x hx' x hm), ih a (hrx.tail hx.1) hx.2⟩
  exact main l u Relation.ReflTransGen.refl hl

theorem isChain_reach {g : Graph} {u : Ref} {l : List Ref}
    (hl : List.IsChain (Edge g) (u :: l)) : ∀ y ∈ u :: l, Reach g u y := by
  induction l generalizing u with
  | nil => intro y hy; simp only [List.mem_singleton] at hy; exact hy ▸ Relation.ReflTransGen.refl
  | cons a t ih =>
    rw [List.isChain_cons_cons] at hl
    intro y hy
    rcases List.mem_cons.1 hy with h | h
    · exact h ▸ Relation.ReflTransGen.refl
    · exact Relation.ReflTransGen.head hl.1 (ih hl.2 y h)

/-- A finite acyclic graph with `n` nodes has no chain with more than `n` nodes. -/
theorem chainsLt_of_acyclic {g : Graph} {u : Ref} (univ : List Ref)
    (huniv : ∀ v, Reach g u v → v ∈ univ) (hac : AcyclicFrom g u) :
    ChainsLt g u univ.length := by
  intro l hl
  have hnd := isChain_nodup hac hl
  have : (u :: l).Subperm univ := List.Nodup.subperm hnd
    (fun y hy => huniv y (isChain_reach hl y hy))
  have h := this.length_le
  simp only [List.length_cons] at h
  omega

/-! ## register_nodes -/

/-- All that `w` depends on is in `ns`. -/
def ClosedAt (g : Graph) (ns : List Ref) (w : Ref) : Prop := ∀ x, Needs g w x → x ∈ ns

theorem needs_iff {g : Graph} {u x : Ref} :
    Needs g u x ↔ ∃ v ∈ g u, Reach g v x := by
  unfold Needs
  rw [Relation.TransGen.head'_iff]
  exact Iff.rfl

theorem registerNodes_spec {g : Graph} {n : Nat} {u : Ref} {ns : List Ref}
    (hc : ChainsLt g u n) (hn : ns.Nodup)
    (hgray : ∀ w ∈ ns, ClosedAt g ns w ∨ Reach g w u) :
    ∃ ns', registerNodes g n u ns = some ns' ∧ ns'.Nodup ∧ (∀ w ∈ ns, w ∈ ns') ∧
      (∀ w ∈ ns', w ∉ ns → Needs g u w ∧ ClosedAt g ns' w) ∧
      (∀ x, Needs g u x → x ∈ ns') := by
  induction n generalizing u ns with
  | zero => exact absurd hc (not_chainsLt_zero g u)
  | succ n ih =>
    simp only [registerNodes]
    have hac := hc.acyclic
    -- loop over a suffix of the children
    have loop : ∀ (ds : List Ref) (ms : List Ref), (∀ d ∈ ds, d ∈ g u) → ms.Nodup →
        (∀ w ∈ ms, ClosedAt g ms w ∨ Reach g w u) →
        ∃ ns', ds.foldlM (fun nodes v =>
            if v ∈ nodes then some nodes else registerNodes g n v (nodes ++ [v])) ms = some ns' ∧
          ns'.Nodup ∧ (∀ w ∈ ms, w ∈ ns') ∧
          (∀ w ∈ ns', w ∉ ms → Needs g u w ∧ ClosedAt g ns' w) ∧
          (∀ d ∈ ds, d ∈ ns' ∧ ClosedAt g ns' d) := by
      intro ds
      induction ds with
      | nil =>
        intro ms _ hms hg
        exact ⟨ms, rfl, hms, fun w h => h, fun w h h' => absurd h h', by simp⟩
      | cons d ds ihds =>
        intro ms hds hms hg
        have hdu : d ∈ g u := hds d (by simp)
        have hds' : ∀ d ∈ ds, d ∈ g u := fun x hx => hds x (List.mem_cons_of_mem _ hx)
        simp only [List.foldlM_cons]
        by_cases hdm : d ∈ ms
        · simp only [hdm, if_true]
          obtain ⟨ns', h1, h2, h3, h4, h5⟩ := ihds ms hds' hms hg
          refine ⟨ns', h1, h2, h3, h4, ?_⟩
          intro e he
          rcases List.mem_cons.1 he with h | h
          · subst h
            refine ⟨h3 e hdm, ?_⟩
            rcases hg e hdm with hcl | hr
            · exact fun x hx => h3 x (hcl x hx)
            · exact absurd (Relation.TransGen.head' hdu hr) (hac u Relation.ReflTransGen.refl)
          · exact h5 e h
        · simp only [hdm, if_false]
          have hg' : ∀ w ∈ ms ++ [d], ClosedAt g (ms ++ [d]) w ∨ Reach g w d := by
            intro w hw
            rcases List.mem_append.1 hw with h | h
            · rcases hg w h with hcl | hr
              · exact Or.inl fun x hx => List.mem_append_left _ (hcl x hx)
              · exact Or.inr (hr.tail hdu)
            · simp only [List.mem_singleton] at h
              exact Or.inr (h ▸ Relation.ReflTransGen.refl)
          have hnd' : (ms ++ [d]).Nodup := by
            refine List.Nodup.append hms (by simp) ?_
            intro a ha hb
            simp only [List.mem_singleton] at hb
            exact hdm (hb ▸ ha)
          obtain ⟨ks, k1, k2, k3, k4, k5⟩ := ih (chainsLt_succ.1 hc d hdu) hnd' hg'
          rw [k1]
          have hsub : ∀ w ∈ ms, w ∈ ks := fun w hw => k3 w (List.mem_append_left _ hw)
          have hdk : d ∈ ks := k3 d (by simp)
          have hnew : ∀ w ∈ ks, w ∉ ms → Needs g u w ∧ ClosedAt g ks w := by
            intro w hw hwm
            by_cases hwd : w = d
            · subst hwd
              exact ⟨Relation.TransGen.single hdu, k5⟩
            · have := k4 w hw (by simp [hwm, hwd])
              exact ⟨Relation.TransGen.head hdu this.1, this.2⟩
          have hgk : ∀ w ∈ ks, ClosedAt g ks w ∨ Reach g w u := by
            intro w hw
            by_cases hwm : w ∈ ms
            · rcases hg w hwm with hcl | hr
              · exact Or.inl fun x hx => hsub x (hcl x hx)
              · exact Or.inr hr
            · exact Or.inl (hnew w hw hwm).2
          obtain ⟨ns', h1, h2, h3, h4, h5⟩ := ihds ks hds' k2 hgk
          refine ⟨ns', by simpa using h1, h2, fun w hw => h3 w (hsub w hw), ?_, ?_⟩
          · intro w hw hwm
            by_cases hwk : w ∈ ks
            · have := hnew w hwk hwm
              exact ⟨this.1, fun x hx => h3 x (this.2 x hx)⟩
            · exact h4 w hw hwk
          · intro e he
            rcases List.mem_cons.1 he with h | h
            · subst h
              exact ⟨h3 e hdk, fun x hx => h3 x (k5 x hx)⟩
            · exact h5 e h
    obtain ⟨ns', h1, h2, h3, h4, h5⟩ := loop (g u) ns (fun d h => h) hn hgray
    refine ⟨ns', h1, h2, h3, h4, ?_⟩
    intro x hx
    obtain ⟨v, hv, hvx⟩ := needs_iff.1 hx
    rcases Relation.reflTransGen_iff_eq_or_transGen.1 hvx with h | h
    · exact h ▸ (h5 v hv).1
    · exact (h5 v hv).2 x h

/-- From an empty dictionary, exactly the things `u` depends on are registered, once each. -/
theorem registerNodes_nil {g : Graph} {n : Nat} {u : Ref} (hc : ChainsLt g u n) :
    ∃ ns, registerNodes g n u [] = some ns ∧ ns.Nodup ∧ ∀ x, x ∈ ns ↔ Needs g u x := by
  obtain ⟨ns, h1, h2, _, h4, h5⟩ := registerNodes_spec (ns := []) hc (by simp) (by simp)
  exact ⟨ns, h1, h2, fun x => ⟨fun hx => (h4 x hx (by simp)).1, h5 x⟩⟩

/-! ## add_fwd_edges -/

theorem addFwdEdges_spec (o : SetOrder Ref) {g : Graph} {n : Nat} {u : Ref} {d : Graph}
    (hc : ChainsLt g u n) :
    ∃ d', addFwdEdges o g n u d = some d' ∧
      (∀ v w, w ∈ d' v ↔ w ∈ d v ∨ (Reach g u w ∧ v ∈ g w)) ∧
      (∀ v, (d v).Nodup → (d' v).Nodup) := by
  induction n generalizing u d with
  | zero => exact absurd hc (not_chainsLt_zero g u)
  | succ n ih =>
    simp only [addFwdEdges]
    have loop : ∀ (ds : List Ref) (e : Graph), (∀ x ∈ ds, x ∈ g u) →
        ∃ d', ds.foldlM (fun d v =>
            addFwdEdges o g n v (Function.update d v (o.list (d v ++ [u])))) e = some d' ∧
          (∀ v w, w ∈ d' v ↔ w ∈ e v ∨
            ∃ x ∈ ds, (w = u ∧ v = x) ∨ (Reach g x w ∧ v ∈ g w)) ∧
          (∀ v, (e v).Nodup → (d' v).Nodup) := by
      intro ds
      induction ds with
      | nil => intro e _; exact ⟨e, rfl, by simp, fun v h => h⟩
      | cons x ds ihds =>
        intro e hds
        have hxu : x ∈ g u := hds x (by simp)
        obtain ⟨e', h1, h2, h3⟩ := ih (u := x)
          (d := Function.update e x (o.list (e x ++ [u]))) (chainsLt_succ.1 hc x hxu)
        obtain ⟨d', k1, k2, k3⟩ := ihds e' (fun y hy => hds y (List.mem_cons_of_mem _ hy))
        refine ⟨d', ?_, ?_, ?_⟩
        · simp only [List.foldlM_cons, h1]
          exact k1
        · intro v w
          rw [k2, h2]
          have hupd : w ∈ Function.update e x (o.list (e x ++ [u])) v ↔
              w ∈ e v ∨ (w = u ∧ v = x) := by
            by_cases hvx : v = x
            · subst hvx
              simp [o.mem_iff]
            · simp [Function.update_of_ne hvx, hvx]
          rw [hupd]
          simp only [List.mem_cons, exists_eq_or_imp, or_assoc]
        · intro v hv
          apply k3
          apply h3
          by_cases hvx : v = x
          · subst hvx
            simp [o.nodup]
          · simpa [Function.update_of_ne hvx] using hv
    obtain ⟨d', h1, h2, h3⟩ := loop (g u) d (fun x h => h)
    refine ⟨d', h1, ?_, h3⟩
    intro v w
    rw [h2]
    apply or_congr_right
    constructor
    · rintro ⟨x, hx, h | h⟩
      · exact ⟨h.1 ▸ Relation.ReflTransGen.refl, by rw [h.1, h.2]; exact hx⟩
      · exact ⟨Relation.ReflTransGen.head hx h.1, h.2⟩
    · rintro ⟨hr, hv⟩
      rcases Relation.ReflTransGen.cases_head hr with h | ⟨x, hx, hxw⟩
      · exact ⟨v, h ▸ hv, Or.inl ⟨h.symm, rfl⟩⟩
      · exact ⟨x, hx, Or.inr ⟨hxw, hv⟩⟩

/-- Conversely the recursion fails if there is a chain that is too long. -/
theorem addFwdEdges_none (o : SetOrder Ref) {g : Graph} {n : Nat} {u : Ref} {d : Graph}
    (hc : ¬ ChainsLt g u n) : addFwdEdges o g n u d = none := by
  induction n generalizing u d with
  | zero => rfl
  | succ n ih =>
    rw [chainsLt_succ] at hc
    push Not at hc
    obtain ⟨v, hv, hcv⟩ := hc
    simp only [addFwdEdges]
    have loop : ∀ (ds : List Ref) (e : Graph), v ∈ ds →
        ds.foldlM (fun d v =>
            addFwdEdges o g n v (Function.update d v (o.list (d v ++ [u])))) e = none := by
      intro ds
      induction ds with
      | nil => intro e h; simp at h
      | cons x ds ihds =>
        intro e h
        simp only [List.foldlM_cons]
        by_cases hxv : x = v
        · subst hxv
          rw [ih hcv]; rfl
        · have hm : v ∈ ds := by
            rcases List.mem_cons.1 h with h | h
            · exact absurd h.symm hxv
            · exact h
          cases hh : addFwdEdges o g n x (Function.update e x (o.list (e x ++ [u]))) with
          | none => rfl
          | some e' => exact ihds e' hm
    exact loop (g u) d hv

/-! ## compute_dag_cost -/

theorem dagCost_isSome {g : Graph} {n : Nat} {u : Ref} (c : Ref → Nat) (hc : ChainsLt g u n) :
    ∃ c', dagCost g n u c = some c' := by
  induction n generalizing u c with
  | zero => exact absurd hc (not_chainsLt_zero g u)
  | succ n ih =>
    simp only [dagCost]
    have loop : ∀ (ds : List Ref) (e : Ref → Nat), (∀ x ∈ ds, x ∈ g u) →
        ∃ c', ds.foldlM (fun c v =>
          (dagCost g n v c).map fun c' => Function.update c' u (c u + c' v)) e = some c' := by
      intro ds
      induction ds with
      | nil => intro e _; exact ⟨e, rfl⟩
      | cons x ds ihds =>
        intro e hds
        obtain ⟨e', h1⟩ := ih e (chainsLt_succ.1 hc x (hds x (by simp)))
        obtain ⟨c', h2⟩ := ihds (Function.update e' u (e u + e' x))
          (fun y hy => hds y (List.mem_cons_of_mem _ hy))
        refine ⟨c', ?_⟩
        simp only [List.foldlM_cons, h1, Option.map_some]
        exact h2
    exact loop (g u) c (fun x h => h)

/-! ## sort_dependency_branches -/

theorem sortBranches_perm (cost : Ref → Nat) (rev : Bool) (l : List Ref) :
    (sortBranches cost rev l).Perm l := by
  unfold sortBranches
  split <;> exact List.perm_insertionSort _ _

theorem sortAll_perm (cost : Ref → Nat) (rev : Bool) (nodes : List Ref) (g : Graph) (u : Ref) :
    (sortAll cost rev nodes g u).Perm (g u) := by
  unfold sortAll
  induction nodes generalizing g with
  | nil => exact List.Perm.refl _
  | cons a t ih =>
    simp only [List.foldl_cons]
    refine (ih _).trans ?_
    by_cases h : u = a
    · subst h
      simp only [Function.update_self]
      exact sortBranches_perm _ _ _
    · rw [Function.update_of_ne h]

/-! ## adding independent variables -/

theorem mem_addDep (o : SetOrder Ref) (g : Graph) (u v a b : Ref) :
    b ∈ addDep o g u v a ↔ b ∈ g a ∨ (a = u ∧ b = v) := by
  unfold addDep
  by_cases h : a = u
  · subst h
    simp [o.mem_iff]
  · simp [Function.update_of_ne h, h]

theorem nodup_addDep (o : SetOrder Ref) (g : Graph) (u v a : Ref) (h : (g a).Nodup) :
    (addDep o g u v a).Nodup := by
  unfold addDep
  by_cases ha : a = u
  · subst ha
    simp [o.nodup]
  · simpa [Function.update_of_ne ha] using h

theorem addDep_of_ne (o : SetOrder Ref) (g : Graph) {u a : Ref} (v : Ref) (h : a ≠ u) :
    addDep o g u v a = g a := by
  unfold addDep
  rw [Function.update_of_ne h]

theorem addIndeps_inner (ov : SetOrder Ref) (isIndep : Ref → Bool) (u : Ref) (is : List Ref)
    (g : Graph) :
    let g' := is.foldl (fun g' i =>
      if isIndep i then (if isIndep u then g' else addDep ov g' u i) else g') g
    (∀ a b, b ∈ g' a ↔ b ∈ g a ∨ (a = u ∧ isIndep u = false ∧ isIndep b = true ∧ b ∈ is)) ∧
    (∀ a, (g a).Nodup → (g' a).Nodup) ∧ (∀ a, a ≠ u → g' a = g a) := by
  induction is generalizing g with
  | nil => simp
  | cons i is ih =>
    simp only [List.foldl_cons]
    by_cases hi : isIndep i = true
    · by_cases hu : isIndep u = true
      · simp only [hi, hu, if_true]
        have := ih g
        simp only [hu, if_true] at this
        refine ⟨?_, this.2⟩
        intro a b
        rw [this.1]
        simp
      · simp only [Bool.not_eq_true] at hu
        simp only [hi, hu, if_true, Bool.false_eq_true, if_false]
        have := ih (addDep ov g u i)
        simp only [hu, Bool.false_eq_true, if_false] at this
        refine ⟨?_, fun a ha => this.2.1 a (nodup_addDep ov g u i a ha),
          fun a ha => (this.2.2 a ha).trans (addDep_of_ne ov g i ha)⟩
        intro a b
        rw [this.1, mem_addDep]
        simp only [List.mem_cons]
        constructor
        · rintro ((h | h) | h)
          · exact Or.inl h
          · exact Or.inr ⟨h.1, trivial, h.2 ▸ hi, Or.inl h.2⟩
          · exact Or.inr ⟨h.1, h.2.1, h.2.2.1, Or.inr h.2.2.2⟩
        · rintro (h | ⟨h1, _, h3, h4 | h4⟩)
          · exact Or.inl (Or.inl h)
          · exact Or.inl (Or.inr ⟨h1, h4⟩)
          · exact Or.inr ⟨h1, trivial, h3, h4⟩
    · simp only [hi, Bool.false_eq_true, if_false]
      have := ih g
      refine ⟨?_, this.2⟩
      intro a b
      rw [this.1]
      simp only [List.mem_cons]
      constructor
      · rintro (h | ⟨h1, h2, h3, h4⟩)
        · exact Or.inl h
        · exact Or.inr ⟨h1, h2, h3, Or.inr h4⟩
      · rintro (h | ⟨h1, h2, h3, h4 | h4⟩)
        · exact Or.inl h
        · subst h4; exact absurd h3 hi
        · exact Or.inr ⟨h1, h2, h3, h4⟩

theorem addIndeps_spec (ov : SetOrder Ref) (isIndep : Ref → Bool) (root : Ref) (nodes : List Ref)
    (g : Graph) (hroot : root ∉ nodes) :
    (∀ a b, b ∈ addIndeps ov isIndep root nodes g a ↔
      b ∈ g a ∨ (a ∈ nodes ∧ isIndep a = false ∧ isIndep b = true ∧ b ∈ g root)) ∧
    (∀ a, (g a).Nodup → (addIndeps ov isIndep root nodes g a).Nodup) ∧
    (∀ a, a ∉ nodes → addIndeps ov isIndep root nodes g a = g a) := by
  unfold addIndeps
  induction nodes generalizing g with
  | nil => simp
  | cons u t ih =>
    simp only [List.foldl_cons]
    obtain ⟨h1, h2, h3⟩ := addIndeps_inner ov isIndep u (g root) g
    obtain ⟨k1, k2, k3⟩ := ih
      ((g root).foldl (fun g' i =>
        if isIndep i then (if isIndep u then g' else addDep ov g' u i) else g') g)
      (fun h => hroot (List.mem_cons_of_mem _ h))
    have hru : root ≠ u := fun e => hroot (by simp [e])
    refine ⟨?_, fun a ha => k2 a (h2 a ha), ?_⟩
    · intro a b
      rw [k1, h1, h3 root hru]
      simp only [List.mem_cons]
      constructor
      · rintro ((h | ⟨a1, a2, a3, a4⟩) | ⟨a1, a2, a3, a4⟩)
        · exact Or.inl h
        · exact Or.inr ⟨Or.inl a1, a1 ▸ a2, a3, a4⟩
        · exact Or.inr ⟨Or.inr a1, a2, a3, a4⟩
      · rintro (h | ⟨a1 | a1, a2, a3, a4⟩)
        · exact Or.inl (Or.inl h)
        · exact Or.inl (Or.inr ⟨a1, a1 ▸ a2, a3, a4⟩)
        · exact Or.inr ⟨a1, a2, a3, a4⟩
    · intro a ha
      rw [List.mem_cons, not_or] at ha
      rw [k3 a ha.2, h3 a ha.1]

/-! ## remove_indirect_dependencies -/

theorem removeByIndex_eq (l : List Ref) (hn : l.Nodup) (i : Nat) :
    removeByIndex l i = l.eraseIdx i := by
  unfold removeByIndex
  by_cases h : i < l.length
  · rw [List.getElem?_eq_getElem h]
    simp only []
    have := hn.erase_getElem i h
    simpa using this
  · rw [List.getElem?_eq_none (by omega)]
    simp only []
    rw [List.eraseIdx_of_length_le (by omega)]

theorem foldl_removeByIndex (is : List Nat) (l : List Ref) (hn : l.Nodup)
    (hd : is.Pairwise (· > ·)) :
    (is.foldl removeByIndex l).Sublist l ∧
    ∀ a, a ∈ is.foldl removeByIndex l ↔ a ∈ l ∧ ∀ i ∈ is, l[i]? ≠ some a := by
  induction is generalizing l with
  | nil => simp
  | cons i is ih =>
    simp only [List.foldl_cons]
    rw [removeByIndex_eq l hn]
    rw [List.pairwise_cons] at hd
    have hs : (l.eraseIdx i).Sublist l := List.eraseIdx_sublist l i
    obtain ⟨h1, h2⟩ := ih (l.eraseIdx i) (hn.sublist hs) hd.2
    refine ⟨h1.trans hs, ?_⟩
    intro a
    rw [h2]
    have hget : ∀ j ∈ is, (l.eraseIdx i)[j]? = l[j]? := by
      intro j hj
      rw [List.getElem?_eraseIdx_of_lt (hd.1 j hj)]
    have hmem : a ∈ l.eraseIdx i ↔ a ∈ l ∧ l[i]? ≠ some a := by
      rw [List.mem_eraseIdx_iff_getElem?]
      constructor
      · rintro ⟨j, hji, hj⟩
        refine ⟨List.mem_of_getElem? hj, ?_⟩
        intro hi
        obtain ⟨h1, e1⟩ := List.getElem?_eq_some_iff.1 hj
        obtain ⟨h2, e2⟩ := List.getElem?_eq_some_iff.1 hi
        exact hji ((List.Nodup.getElem_inj_iff hn).1 (e1.trans e2.symm))
      · rintro ⟨ha, hi⟩
        obtain ⟨j, hj⟩ := List.mem_iff_getElem?.1 ha
        exact ⟨j, fun e => hi (e ▸ hj), hj⟩
    rw [hmem]
    simp only [List.mem_cons, forall_eq_or_imp, and_assoc]
    constructor
    · rintro ⟨h1, h2, h3⟩
      exact ⟨h1, h2, fun j hj => by rw [← hget j hj]; exact h3 j hj⟩
    · rintro ⟨h1, h2, h3⟩
      exact ⟨h1, h2, fun j hj => by rw [hget j hj]; exact h3 j hj⟩

theorem depIndex_eq_some (l : List Ref) (hn : l.Nodup) (c : Ref) (i : Nat) :
    depIndex l c = some i ↔ l[i]? = some c := by
  unfold depIndex
  constructor
  · intro h
    rw [List.findIdx?_eq_some_iff_getElem] at h
    obtain ⟨hi, h1, _⟩ := h
    rw [List.getElem?_eq_getElem hi]
    simpa using h1
  · intro h
    obtain ⟨hi, he⟩ := List.getElem?_eq_some_iff.1 h
    rw [List.findIdx?_eq_some_iff_getElem]
    refine ⟨hi, by simpa using he, ?_⟩
    intro j hj
    simp only [beq_iff_eq, Bool.not_eq_true]
    have : l[j] ≠ c := by
      intro e
      have := (List.Nodup.getElem_inj_iff hn).1 (e.trans he.symm)
      omega
    simpa using this

theorem mem_removeCandidates (g : Graph) (u : Ref) (hn : (g u).Nodup) (i : Nat) :
    i ∈ removeCandidates g u ↔ ∃ w, (g u)[i]? = some w ∧ ∃ c ∈ g u, w ∈ g c := by
  unfold removeCandidates
  simp only [List.mem_flatMap, List.mem_filterMap, depIndex_eq_some _ hn]
  constructor
  · rintro ⟨c, hc, w, hw, hi⟩
    exact ⟨w, hi, c, hc, hw⟩
  · rintro ⟨w, hi, c, hc, hw⟩
    exact ⟨c, hc, w, hw, hi⟩

/-- In an acyclic graph, induction over the dependencies of one node from above. -/
theorem deps_induction {g : Graph} {u : Ref} (hac : AcyclicFrom g u) {P : Ref → Prop}
    (h : ∀ w ∈ g u, (∀ c ∈ g u, w ∈ g c → P c) → P w) : ∀ w ∈ g u, P w := by
  let T := {x : Ref // x ∈ g u}
  let R : T → T → Prop := fun a b => Needs g a.1 b.1
  have htrans : IsTrans T R := ⟨fun a b c h1 h2 => Relation.TransGen.trans h1 h2⟩
  have hirr : Std.Irrefl R := ⟨fun a h =>
    hac a.1 (Relation.ReflTransGen.single a.2) h⟩
  have hwf : WellFounded R := Finite.wellFounded_of_trans_of_irrefl R
  intro w hw
  have key : ∀ t : T, P t.1 := by
    intro t
    induction t using hwf.induction with
    | _ t ih =>
      exact h t.1 t.2 fun c hc hct => ih ⟨c, hc⟩ (Relation.TransGen.single hct)
  exact key ⟨w, hw⟩

theorem mem_removeCandidates_lt {g : Graph} {u : Ref} (hn : (g u).Nodup) {i : Nat}
    (h : i ∈ removeCandidates g u) : i < (g u).length := by
  obtain ⟨w, hw, _⟩ := (mem_removeCandidates g u hn i).1 h
  exact (List.getElem?_eq_some_iff.1 hw).1

theorem reducedDeps_spec (o : SetOrder Nat) {g : Graph} {u : Ref}
    (ho : (o.list (removeCandidates g u)).Pairwise (· < ·)) (hn : (g u).Nodup) (hac : AcyclicFrom g u) :
    (reducedDeps o g u).Sublist (g u) ∧
    ∀ w, w ∈ reducedDeps o g u ↔ w ∈ g u ∧ ¬ ∃ c ∈ g u, w ∈ g c := by
  unfold reducedDeps
  simp only []
  have hdesc : (o.list (removeCandidates g u)).reverse.Pairwise (· > ·) := by
    rw [List.pairwise_reverse]
    exact ho
  -- either nothing to do or not all dependencies are removed
  by_cases hempty : g u = []
  · have hrc : ∀ i, i ∉ o.list (removeCandidates g u) := by
      intro i hi
      rw [o.mem_iff, mem_removeCandidates g u hn] at hi
      simp [hempty] at hi
    rw [List.eq_nil_iff_forall_not_mem.2 hrc, hempty]
    simp
  · have hlt : (o.list (removeCandidates g u)).length ≠ (g u).length := by
      intro heq
      have hsub : (o.list (removeCandidates g u)).Subperm (List.range (g u).length) := by
        apply List.Nodup.subperm (o.nodup _)
        intro i hi
        rw [o.mem_iff, mem_removeCandidates g u hn] at hi
        obtain ⟨w, hw, _⟩ := hi
        rw [List.mem_range]
        exact (List.getElem?_eq_some_iff.1 hw).1
      have hp := hsub.perm_of_length_le (by simp [heq])
      have hall : ∀ w ∈ g u, ∃ c ∈ g u, w ∈ g c := by
        intro w hw
        obtain ⟨i, hi⟩ := List.mem_iff_getElem?.1 hw
        have : i ∈ o.list (removeCandidates g u) := by
          rw [hp.mem_iff, List.mem_range]
          exact (List.getElem?_eq_some_iff.1 hi).1
        rw [o.mem_iff, mem_removeCandidates g u hn] at this
        obtain ⟨w', hw', h⟩ := this
        rw [hi] at hw'
        simp only [Option.some.injEq] at hw'
        exact hw' ▸ h
      have hF : ∀ w ∈ g u, False := by
        apply deps_induction hac (P := fun _ => False)
        intro w hw ih
        obtain ⟨c, hc, hwc⟩ := hall w hw
        exact ih c hc hwc
      obtain ⟨w, hw⟩ := List.exists_mem_of_ne_nil _ hempty
      exact hF w hw
    rw [if_neg hlt]
    simp only [Nat.zero_le, if_true]
    obtain ⟨h1, h2⟩ := foldl_removeByIndex _ (g u) hn hdesc
    refine ⟨h1, ?_⟩
    intro w
    rw [h2]
    apply and_congr_right
    intro hw
    constructor
    · rintro h ⟨c, hc, hwc⟩
      obtain ⟨i, hi⟩ := List.mem_iff_getElem?.1 hw
      refine h i ?_ hi
      rw [List.mem_reverse, o.mem_iff, mem_removeCandidates g u hn]
      exact ⟨w, hi, c, hc, hwc⟩
    · intro h i hi hiw
      rw [List.mem_reverse, o.mem_iff, mem_removeCandidates g u hn] at hi
      obtain ⟨w', hw', hex⟩ := hi
      rw [hiw] at hw'
      simp only [Option.some.injEq] at hw'
      exact h (hw' ▸ hex)

theorem removeIndirect_edge_sub (o : SetOrder Nat) {g : Graph} {u : Ref}
    (ho : (o.list (removeCandidates g u)).Pairwise (· < ·)) (hn : (g u).Nodup) (hac : AcyclicFrom g u) (a b : Ref)
    (h : Edge (removeIndirect o g u) a b) : Edge g a b := by
  unfold Edge removeIndirect at *
  by_cases ha : a = u
  · subst ha
    rw [Function.update_self] at h
    exact (((reducedDeps_spec o ho hn hac).2 b).1 h).1
  · rwa [Function.update_of_ne ha] at h

theorem removeIndirect_needs_of_edge (o : SetOrder Nat) {g : Graph} {u : Ref}
    (ho : (o.list (removeCandidates g u)).Pairwise (· < ·)) (hn : (g u).Nodup) (hac : AcyclicFrom g u) (a b : Ref) (h : Edge g a b) :
    Needs (removeIndirect o g u) a b := by
  by_cases ha : a = u
  · subst ha
    have hspec := (reducedDeps_spec o ho hn hac).2
    refine deps_induction hac (P := fun w => Needs (removeIndirect o g a) a w) ?_ b h
    intro w hw ih
    by_cases hk : ∃ c ∈ g a, w ∈ g c
    · obtain ⟨c, hc, hwc⟩ := hk
      refine (ih c hc hwc).tail ?_
      have hca : c ≠ a := by
        intro e
        exact hac a Relation.ReflTransGen.refl (Relation.TransGen.single (e ▸ hc))
      show w ∈ removeIndirect o g a c
      unfold removeIndirect
      rwa [Function.update_of_ne hca]
    · apply Relation.TransGen.single
      show w ∈ removeIndirect o g a a
      unfold removeIndirect
      rw [Function.update_self]
      exact (hspec w).2 ⟨hw, hk⟩
  · apply Relation.TransGen.single
    show b ∈ removeIndirect o g u a
    unfold removeIndirect
    rwa [Function.update_of_ne ha]

theorem needs_mono {g g' : Graph} (h : ∀ a b, Edge g a b → Needs g' a b) {a b : Ref}
    (hab : Needs g a b) : Needs g' a b := by
  induction hab with
  | single hx => exact h _ _ hx
  | tail _ hx ih => exact Relation.TransGen.trans ih (h _ _ hx)

theorem reach_iff_of_needs_iff {g g' : Graph} (h : ∀ a b, Needs g a b ↔ Needs g' a b)
    (a b : Ref) : Reach g a b ↔ Reach g' a b := by
  unfold Reach
  rw [Relation.reflTransGen_iff_eq_or_transGen, Relation.reflTransGen_iff_eq_or_transGen]
  exact or_congr_right (h a b)

theorem removeIndirect_needs (o : SetOrder Nat) {g : Graph} {u : Ref}
    (ho : (o.list (removeCandidates g u)).Pairwise (· < ·)) (hn : (g u).Nodup) (hac : AcyclicFrom g u) (a b : Ref) :
    Needs (removeIndirect o g u) a b ↔ Needs g a b :=
  ⟨needs_mono fun x y h => Relation.TransGen.single (removeIndirect_edge_sub o ho hn hac x y h),
   needs_mono (removeIndirect_needs_of_edge o ho hn hac)⟩

theorem removeIndirect_sublist (o : SetOrder Nat) {g : Graph} {u : Ref}
    (ho : (o.list (removeCandidates g u)).Pairwise (· < ·)) (hn : (g u).Nodup) (hac : AcyclicFrom g u) (a : Ref) :
    (removeIndirect o g u a).Sublist (g a) := by
  unfold removeIndirect
  by_cases ha : a = u
  · subst ha
    rw [Function.update_self]
    exact (reducedDeps_spec o ho hn hac).1
  · rw [Function.update_of_ne ha]

theorem length_filterMap_some {α β : Type} {f : α → Option β} {l : List α} (h : ∀ a ∈ l, (f a).isSome) :
    (l.filterMap f).length = l.length := by
  induction l with
  | nil => rfl
  | cons a l ih =>
    obtain ⟨b, hb⟩ := Option.isSome_iff_exists.1 (h a (by simp))
    rw [List.filterMap_cons, hb]
    simp [ih fun x hx => h x (List.mem_cons_of_mem _ hx)]

/-- The positions to be removed come in ascending order if every dependency of `u` depends on all or none of `I`. -/
theorem candidates_ascending (o : SetOrder Nat) {I : List Ref} (hI : I.Nodup) {r k : Nat} {g : Graph} {u : Ref}
    (ho : AscendingSets o r I.length k) (hk : (g u).length ≤ k) (hn : (g u).Nodup)
    (hr : ∀ l : List Ref, l.Nodup → (∀ w ∈ l, w ∈ g u ∧ w ∉ I ∧ ∃ c ∈ g u, w ∈ g c) → l.length ≤ r)
    (hIu : (∀ i ∈ I, i ∈ g u) ∨ ∀ i ∈ I, i ∉ g u)
    (hIc : ∀ c ∈ g u, (∀ i ∈ I, i ∈ g c) ∨ ∀ i ∈ I, i ∉ g c) :
    (o.list (removeCandidates g u)).Pairwise (· < ·) := by
  have hcand : ∀ i, i ∈ o.list (removeCandidates g u) ↔ ∃ w, (g u)[i]? = some w ∧ ∃ c ∈ g u, w ∈ g c :=
    fun i => (o.mem_iff _ i).trans (mem_removeCandidates g u hn i)
  refine ho _ (fun i hi => lt_of_lt_of_le (mem_removeCandidates_lt hn hi) hk) ?_
  set L := o.list (removeCandidates g u)
  -- the elements at the positions
  set E := L.filterMap fun i => (g u)[i]?
  have hE : ∀ w, w ∈ E ↔ w ∈ g u ∧ ∃ c ∈ g u, w ∈ g c := by
    intro w
    rw [List.mem_filterMap]
    constructor
    · rintro ⟨i, hi, hw⟩
      obtain ⟨w', hw', h⟩ := (hcand i).1 hi
      rw [hw] at hw'
      cases hw'
      exact ⟨List.mem_iff_getElem?.2 ⟨i, hw⟩, h⟩
    · rintro ⟨hw, h⟩
      obtain ⟨i, hi⟩ := List.mem_iff_getElem?.1 hw
      exact ⟨i, (hcand i).2 ⟨w, hi, h⟩, hi⟩
  have hEn : E.Nodup := by
    refine (o.nodup _).filterMap fun i j w hi hj => ?_
    have hi' : (g u)[i]? = some w := hi
    have hj' : (g u)[j]? = some w := hj
    obtain ⟨hil, hi'⟩ := List.getElem?_eq_some_iff.1 hi'
    obtain ⟨hjl, hj'⟩ := List.getElem?_eq_some_iff.1 hj'
    exact (hn.getElem_inj_iff).1 (hi'.trans hj'.symm)
  have hlen : E.length = L.length := by
    refine length_filterMap_some fun i hi => ?_
    obtain ⟨w, hw, _⟩ := (hcand i).1 hi
    simp [hw]
  rw [← hlen]
  by_cases hall : (∀ i ∈ I, i ∈ g u) ∧ ∃ c ∈ g u, ∀ i ∈ I, i ∈ g c
  · obtain ⟨h1, c, hc, h2⟩ := hall
    right
    exact (hI.subperm fun i hi => (hE i).2 ⟨h1 i hi, c, hc, h2 i hi⟩).length_le
  · left
    refine hr E hEn fun w hw => ?_
    obtain ⟨hwu, c, hc, hwc⟩ := (hE w).1 hw
    refine ⟨hwu, fun hwI => hall ⟨?_, c, hc, ?_⟩, c, hc, hwc⟩
    · rcases hIu with h | h
      · exact h
      · exact absurd hwu (h w hwI)
    · rcases hIc c hc with h | h
      · exact h
      · exact absurd hwc (h w hwI)

/-- The result of all calls, for a graph whose nodes depend on all or none of the elements of `I`. -/
theorem removeIndirectAll_spec' (o : SetOrder Nat) (I : List Ref) (hI : I.Nodup) (r k : Ref → Nat) (P : Ref → Prop)
    (nodes : List Ref) (g : Graph) (ho : ∀ u ∈ nodes, AscendingSets o (r u) I.length (k u))
    (hk : ∀ u ∈ nodes, (g u).length ≤ k u)
    (hr : ∀ u ∈ nodes, ∀ l : List Ref, l.Nodup → (∀ w ∈ l, w ∈ g u ∧ w ∉ I ∧ ∃ c ∈ g u, Needs g c w) →
      l.length ≤ r u)
    (hn : ∀ u ∈ nodes, (g u).Nodup) (hac : ∀ u ∈ nodes, AcyclicFrom g u)
    (hP : ∀ u ∈ nodes, P u) (hclosed : ∀ a, P a → ∀ b ∈ g a, P b)
    (hall : ∀ a, P a → (∀ i ∈ I, i ∈ g a) ∨ ∀ i ∈ I, i ∉ g a) :
    (∀ a b, Needs (removeIndirectAll o nodes g) a b ↔ Needs g a b) ∧
    (∀ a, (removeIndirectAll o nodes g a).Sublist (g a)) ∧
    (∀ a, a ∉ nodes → removeIndirectAll o nodes g a = g a) := by
  unfold removeIndirectAll
  induction nodes generalizing g with
  | nil => simp
  | cons u t ih =>
    simp only [List.foldl_cons]
    have hnu := hn u (by simp)
    have hacu := hac u (by simp)
    have hPu := hP u (by simp)
    have hasc := candidates_ascending o hI (ho u (by simp)) (hk u (by simp)) hnu
      (fun l hl h => hr u (by simp) l hl fun w hw => by
        obtain ⟨h1, h2, c, hc, h3⟩ := h w hw
        exact ⟨h1, h2, c, hc, .single h3⟩)
      (hall u hPu) fun c hc => hall c (hclosed u hPu c hc)
    have hdep := removeIndirect_needs o hasc hnu hacu
    have hsub := removeIndirect_sublist o hasc hnu hacu
    obtain ⟨h1, h2, h3⟩ := ih (removeIndirect o g u) (fun v hv => ho v (List.mem_cons_of_mem _ hv))
      (fun v hv => (hsub v).length_le.trans (hk v (List.mem_cons_of_mem _ hv)))
      (fun v hv l hl h => hr v (List.mem_cons_of_mem _ hv) l hl fun w hw => by
        obtain ⟨h1, h2, c, hc, h3⟩ := h w hw
        exact ⟨(hsub v).subset h1, h2, c, (hsub v).subset hc, (hdep c w).1 h3⟩)
      (fun v hv => (hn v (List.mem_cons_of_mem _ hv)).sublist (hsub v))
      (by
        intro v hv x hx hxx
        have hreach := reach_iff_of_needs_iff hdep
        exact hac v (List.mem_cons_of_mem _ hv) x ((hreach v x).1 hx) ((hdep x x).1 hxx))
      (fun v hv => hP v (List.mem_cons_of_mem _ hv))
      (fun a ha b hb => hclosed a ha b ((hsub a).subset hb))
      (by
        intro a ha
        by_cases hau : a = u
        · subst hau
          have hmem : ∀ w, w ∈ removeIndirect o g a a ↔ w ∈ g a ∧ ¬ ∃ c ∈ g a, w ∈ g c := by
            intro w
            unfold removeIndirect
            rw [Function.update_self]
            exact (reducedDeps_spec o hasc hnu hacu).2 w
          rcases hall a ha with h | h
          · by_cases hc : ∃ c ∈ g a, ∀ i ∈ I, i ∈ g c
            · obtain ⟨c, hc, hi⟩ := hc
              exact Or.inr fun i hiI hm => ((hmem i).1 hm).2 ⟨c, hc, hi i hiI⟩
            · refine Or.inl fun i hiI => (hmem i).2 ⟨h i hiI, ?_⟩
              rintro ⟨c, hca, hic⟩
              rcases hall c (hclosed a ha c hca) with h' | h'
              · exact hc ⟨c, hca, h'⟩
              · exact h' i hiI hic
          · exact Or.inr fun i hiI hm => h i hiI ((hmem i).1 hm).1
        · unfold removeIndirect
          rw [Function.update_of_ne hau]
          exact hall a ha)
    refine ⟨fun a b => (h1 a b).trans (hdep a b), fun a => (h2 a).trans (hsub a), ?_⟩
    intro a ha
    rw [List.mem_cons, not_or] at ha
    rw [h3 a ha.2]
    unfold removeIndirect
    rw [Function.update_of_ne ha.1]

theorem AscendingBelow.sets {o : SetOrder Nat} {k : Nat} (h : AscendingBelow o k) (r m : Nat) {k' : Nat} (hk : k' ≤ k) :
    AscendingSets o r m k' := fun xs hx _ => h xs fun i hi => lt_of_lt_of_le (hx i hi) hk

theorem removeIndirectAll_spec (o : SetOrder Nat) {k : Nat} (ho : AscendingBelow o k)
    (nodes : List Ref) (g : Graph) (hk : ∀ u ∈ nodes, (g u).length ≤ k)
    (hn : ∀ u ∈ nodes, (g u).Nodup) (hac : ∀ u ∈ nodes, AcyclicFrom g u) :
    (∀ a b, Needs (removeIndirectAll o nodes g) a b ↔ Needs g a b) ∧
    (∀ a, (removeIndirectAll o nodes g a).Sublist (g a)) ∧
    (∀ a, a ∉ nodes → removeIndirectAll o nodes g a = g a) :=
  removeIndirectAll_spec' o [] List.nodup_nil (fun _ => k) (fun _ => k) (fun _ => True) nodes g
    (fun _ _ => ho.sets _ _ le_rfl) hk
    (fun u hu _ hl h => (hl.subperm fun w hw => (h w hw).1).length_le.trans (hk u hu)) hn hac
    (fun _ _ => trivial) (fun _ _ _ _ => trivial) (fun _ _ => Or.inl (by simp))

/-- The set order is good for the dependencies of `u` in a group with `n` independent variables: there is a bound `r` of
the number of dependencies of `u` that another dependency of `u` needs as well, and sets of positions among the
dependencies of `u` and any `m ≤ n` independent variables come in ascending order if they have at most `r` or at least `m`
elements. -/
def OrderOk (o : SetOrder Nat) (deps : Nat → List Nat) (n : Nat) (u : Nat) : Prop :=
  ∃ r, (∀ l : List Nat, l.Nodup → (∀ w ∈ l, w ∈ deps u ∧ ∃ c ∈ deps u, Needs deps c w) → l.length ≤ r) ∧
    ∀ m ≤ n, AscendingSets o r m ((deps u).length + m)

theorem OrderOk.of_below {o : SetOrder Nat} {k : Nat} (h : AscendingBelow o k) {deps : Graph} {n u : Nat}
    (hk : (deps u).length + n ≤ k) : OrderOk o deps n u :=
  ⟨(deps u).length, fun _ hl h => (hl.subperm fun w hw => (h w hw).1).length_le, fun m hm => h.sets _ _ (by omega)⟩

/-- The calls made by `Group.setup`: every node got all independent variables as dependencies. -/
theorem removeIndirectAll_indeps (o : SetOrder Nat) (isIndep : Ref → Bool) (root : Ref) (deps g1 : Graph)
    (nodes : List Ref) (hmem : ∀ v, v ∈ nodes ↔ Needs deps root v)
    (hw : ∀ a b, b ∈ g1 a ↔ b ∈ deps a ∨ (a ∈ nodes ∧ isIndep a = false ∧ isIndep b = true ∧ b ∈ deps root))
    (hord : ∀ u, Needs deps root u → OrderOk o deps ((deps root).filter isIndep).length u)
    (hroot : (deps root).Nodup) (hleaf : ∀ i, Needs deps root i → isIndep i = true → deps i = [])
    (hn : ∀ u ∈ nodes, (g1 u).Nodup) (hac : ∀ u ∈ nodes, AcyclicFrom g1 u) :
    (∀ a b, Needs (removeIndirectAll o nodes g1) a b ↔ Needs g1 a b) ∧
    (∀ a, (removeIndirectAll o nodes g1 a).Sublist (g1 a)) ∧
    (∀ a, a ∉ nodes → removeIndirectAll o nodes g1 a = g1 a) := by
  set I := (deps root).filter isIndep with hI
  have hImem : ∀ i, i ∈ I ↔ i ∈ deps root ∧ isIndep i = true := fun i => List.mem_filter
  have hIleaf : ∀ i ∈ I, ∀ x, x ∉ g1 i := by
    intro i hi x hx
    have h := (hImem i).1 hi
    rcases (hw i x).1 hx with h' | ⟨_, h', _⟩
    · rw [hleaf i (.single h.1) h.2] at h'; cases h'
    · rw [h.2] at h'; cases h'
  have hdeps : ∀ {a b}, b ∈ g1 a → b ∉ I → b ∈ deps a := by
    intro a b h hb
    rcases (hw a b).1 h with h' | ⟨_, _, h3, h4⟩
    · exact h'
    · exact absurd ((hImem b).2 ⟨h4, h3⟩) hb
  have hneeds : ∀ {a b}, Needs g1 a b → b ∉ I → Needs deps a b := by
    intro a b h
    induction h with
    | single h => intro hb; exact .single (hdeps h hb)
    | tail _ h ih =>
      intro hb
      exact (ih fun hc => hIleaf _ hc _ h).tail (hdeps h hb)
  choose! r hr using hord
  refine removeIndirectAll_spec' o I (hroot.filter _) r (fun u => (deps u).length + I.length) (Needs deps root ·) nodes g1
    (fun u hu => (hr u ((hmem u).1 hu)).2 _ le_rfl) (fun u hu => ?_) (fun u hu l hl h => ?_) hn hac
    (fun u hu => (hmem u).1 hu) (fun a ha b hb => ?_) (fun a ha => ?_)
  · rw [← List.length_append]
    refine ((hn u hu).subperm fun b hb => ?_).length_le
    rw [List.mem_append]
    by_cases hbI : b ∈ I
    · exact Or.inr hbI
    · exact Or.inl (hdeps hb hbI)
  · refine (hr u ((hmem u).1 hu)).1 l hl fun w hw' => ?_
    obtain ⟨h1, h2, c, hc, h3⟩ := h w hw'
    refine ⟨hdeps h1 h2, c, hdeps hc fun hcI => ?_, hneeds h3 h2⟩
    obtain ⟨x, hx, _⟩ := Relation.TransGen.head'_iff.1 h3
    exact hIleaf c hcI x hx
  · rcases (hw a b).1 hb with h | ⟨_, _, _, h⟩
    · exact ha.tail h
    · exact .single h
  · cases hi : isIndep a with
    | false => exact Or.inl fun i hiI => (hw a i).2 (Or.inr ⟨(hmem a).2 ha, hi, ((hImem i).1 hiI).2, ((hImem i).1 hiI).1⟩)
    | true =>
      refine Or.inr fun i _ h => ?_
      rcases (hw a i).1 h with h' | ⟨_, h', _⟩
      · rw [hleaf a ha hi] at h'; cases h'
      · rw [hi] at h'; cases h'

end OM
