import Verif.Props.Passes
import Mathlib.Tactic.Ring

/-!
# C57: the amount of work done by setup

`add_fwd_edges` (variable.py 214-217) has no memory of visited nodes: it is called once per path.
-/

namespace OM
open Spec

/-- `addFwdEdges` with a counter of the calls made (the counter is the only addition). -/
def addFwdEdgesCounted (o : SetOrder Ref) (g : Graph) : Nat → Ref → Graph × Nat → Option (Graph × Nat)
  | 0, _, _ => none
  | limit + 1, u, (dependents, calls) =>
    (g u).foldlM (fun (d : Graph × Nat) v =>
      addFwdEdgesCounted o g limit v (Function.update d.1 v (o.list (d.1 v ++ [u])), d.2))
      (dependents, calls + 1)

/-- The counter does not change what is computed. -/
theorem addFwdEdgesCounted_fst (o : SetOrder Ref) (g : Graph) (n : Nat) (u : Ref) (d : Graph)
    (c : Nat) : (addFwdEdgesCounted o g n u (d, c)).map Prod.fst = addFwdEdges o g n u d := by
  induction n generalizing u d c with
  | zero => rfl
  | succ n ih =>
    simp only [addFwdEdgesCounted, addFwdEdges]
    have loop : ∀ (ds : List Ref) (e : Graph) (k : Nat),
        (ds.foldlM (fun (d : Graph × Nat) v =>
          addFwdEdgesCounted o g n v (Function.update d.1 v (o.list (d.1 v ++ [u])), d.2))
          (e, k)).map Prod.fst =
        ds.foldlM (fun d v =>
            addFwdEdges o g n v (Function.update d v (o.list (d v ++ [u])))) e := by
      intro ds
      induction ds with
      | nil => intro e k; rfl
      | cons x ds ihd =>
        intro e k
        simp only [List.foldlM_cons, ← ih x _ k]
        cases h : addFwdEdgesCounted o g n x (Function.update e x (o.list (e x ++ [u])), k) with
        | none => rfl
        | some r => exact ihd r.1 r.2
    exact loop _ _ _

/-- Two expressions per layer, each using both expressions of the next layer, e.g.
`a, b = a + b, a - b` in a Python loop. Node `0` is the root. -/
def ladder (m : Nat) : Nat → List Nat := fun u =>
  if u = 0 then [1, 2] else if (u - 1) / 2 < m then [2 * ((u - 1) / 2) + 3, 2 * ((u - 1) / 2) + 4]
  else []

theorem ladder_layer {m i : Nat} (hi : i < m) (u : Nat) (hu : u = 2 * i + 1 ∨ u = 2 * i + 2) :
    ladder m u = [2 * (i + 1) + 1, 2 * (i + 1) + 2] := by
  have h1 : (u - 1) / 2 = i := by omega
  unfold ladder
  rw [if_neg (by omega), h1, if_pos hi]
  rfl

theorem ladder_calls (o : SetOrder Ref) (m : Nat) (j : Nat) : ∀ (n i u : Nat) (d d' : Graph)
    (c c' : Nat), i + j = m → (u = 2 * i + 1 ∨ u = 2 * i + 2) →
    addFwdEdgesCounted o (ladder m) n u (d, c) = some (d', c') → c + 2 ^ j ≤ c' := by
  induction j with
  | zero =>
    intro n i u d d' c c' hi hu h
    cases n with
    | zero => simp [addFwdEdgesCounted] at h
    | succ n =>
      have : ladder m u = [] := by
        unfold ladder
        rw [if_neg (by omega), if_neg (by omega)]
      simp only [addFwdEdgesCounted, this, List.foldlM_nil] at h
      simp at h
      omega
  | succ j ih =>
    intro n i u d d' c c' hi hu h
    cases n with
    | zero => simp [addFwdEdgesCounted] at h
    | succ n =>
      simp only [addFwdEdgesCounted, ladder_layer (show i < m by omega) u hu, List.foldlM_cons,
        List.foldlM_nil, Option.bind_eq_bind] at h
      rw [Option.bind_eq_some_iff] at h
      obtain ⟨⟨d1, c1⟩, h1, h2⟩ := h
      rw [Option.bind_eq_some_iff] at h2
      obtain ⟨⟨d2, c2⟩, h2, h3⟩ := h2
      simp at h3
      have e1 := ih n (i + 1) _ _ _ _ _ (by omega) (Or.inl rfl) h1
      have e2 := ih n (i + 1) _ _ _ _ _ (by omega) (Or.inr rfl) h2
      have : 2 ^ (j + 1) = 2 ^ j + 2 ^ j := by ring
      omega

/-- The removal of indirect dependencies does not help: a ladder has none. -/
theorem ladder_irreducible (oi : SetOrder Nat) (m : Nat) (nodes : List Nat) :
    removeIndirectAll oi nodes (ladder m) = ladder m := by
  have hstep : ∀ u, removeIndirect oi (ladder m) u = ladder m := by
    intro u
    have hno : removeCandidates (ladder m) u = [] := by
      unfold removeCandidates
      rw [List.flatMap_eq_nil_iff]
      intro c hc
      rw [List.filterMap_eq_nil_iff]
      intro gc hgc
      have hlev : ∀ a b : Nat, b ∈ ladder m a → (b + 1) / 2 = (a + 1) / 2 + 1 := by
        intro a b hb
        unfold ladder at hb
        split at hb
        · simp at hb; omega
        · split at hb
          · simp at hb; omega
          · simp at hb
      unfold depIndex
      rw [List.findIdx?_eq_none_iff]
      intro x hx
      have h1 := hlev _ _ hc
      have h2 := hlev _ _ hgc
      have h3 := hlev _ _ hx
      have : x ≠ gc := by
        intro e
        subst e
        have h1' : ((c : Nat) + 1) / 2 = ((u : Nat) + 1) / 2 + 1 := h1
        have h2' : ((x : Nat) + 1) / 2 = ((c : Nat) + 1) / 2 + 1 := h2
        have h3' : ((x : Nat) + 1) / 2 = ((u : Nat) + 1) / 2 + 1 := h3
        omega
      simpa using this
    have hred : reducedDeps oi (ladder m) u = ladder m u := by
      unfold reducedDeps
      rw [hno]
      have : oi.list [] = [] := by
        rw [List.eq_nil_iff_forall_not_mem]
        intro a ha
        simpa using (oi.mem_iff [] a).1 ha
      rw [this]
      rfl
    unfold removeIndirect
    rw [hred]
    exact Function.update_eq_self _ _
  unfold removeIndirectAll
  induction nodes with
  | nil => rfl
  | cons u t ih => rw [List.foldl_cons, hstep, ih]

theorem ladder_calls_root (o : SetOrder Ref) (oi : SetOrder Nat) (m n : Nat) (nodes : List Nat)
    (d d' : Graph) (calls : Nat)
    (h : addFwdEdgesCounted o (removeIndirectAll oi nodes (ladder m)) n 0 (d, 0) =
      some (d', calls)) : 2 ^ (m + 1) < calls := by
  rw [ladder_irreducible] at h
  cases n with
  | zero => simp [addFwdEdgesCounted] at h
  | succ n =>
    have : ladder m 0 = [1, 2] := rfl
    simp only [addFwdEdgesCounted, this, List.foldlM_cons, List.foldlM_nil,
      Option.bind_eq_bind] at h
    rw [Option.bind_eq_some_iff] at h
    obtain ⟨⟨d1, c1⟩, h1, h2⟩ := h
    rw [Option.bind_eq_some_iff] at h2
    obtain ⟨⟨d2, c2⟩, h2, h3⟩ := h2
    simp at h3
    have e1 := ladder_calls o m m n 0 1 _ _ _ _ (by omega) (Or.inl rfl) h1
    have e2 := ladder_calls o m m n 0 2 _ _ _ _ (by omega) (Or.inr rfl) h2
    have : 2 ^ (m + 1) = 2 ^ m + 2 ^ m := by ring
    omega

theorem ladder_chains (m : Nat) : ∀ (j u : Nat), m + 1 ≤ (u + 1) / 2 + j →
    ChainsLt (ladder m) u (j + 1) := by
  intro j
  induction j with
  | zero =>
    intro u hu
    rw [chainsLt_succ]
    intro v hv
    have : ladder m u = [] := by
      unfold ladder
      rw [if_neg (by omega), if_neg (by omega)]
    rw [this] at hv
    simp at hv
  | succ j ih =>
    intro u hu
    rw [chainsLt_succ]
    intro v hv
    apply ih
    unfold ladder at hv
    split at hv
    · simp at hv; omega
    · split at hv
      · simp at hv; omega
      · simp at hv

/-- **C57, refuted.** Setup of the group with the `2 (m + 1)` expressions of the ladder succeeds in
adding the forward edges, but `add_fwd_edges` is called more than `2 ^ (m + 1)` times. -/
theorem c57_exponential_work (o : SetOrder Ref) (oi : SetOrder Nat) (m n : Nat) (nodes : List Nat)
    (d : Graph) (hn : m + 2 ≤ n) :
    ∃ d' calls, addFwdEdgesCounted o (removeIndirectAll oi nodes (ladder m)) n 0 (d, 0) =
      some (d', calls) ∧ 2 ^ (m + 1) < calls := by
  have hc : ChainsLt (ladder m) 0 n := (ladder_chains m (m + 1) 0 (by omega)).mono hn
  obtain ⟨d', h, _⟩ := addFwdEdges_spec o (d := d) hc
  rw [← addFwdEdgesCounted_fst o (ladder m) n 0 d 0] at h
  cases hr : addFwdEdgesCounted o (ladder m) n 0 (d, 0) with
  | none => simp [hr] at h
  | some r =>
    refine ⟨r.1, r.2, by rw [ladder_irreducible, hr], ?_⟩
    apply ladder_calls_root o oi m n nodes d r.1 r.2
    rw [ladder_irreducible, hr]

/-- With two layers, seven calls for four expressions. -/
example : (addFwdEdgesCounted demoEnv.ov (removeIndirectAll pyOrder [1, 2, 3, 4] (ladder 1)) 10 0
    (fun _ => [], 0)).map Prod.snd = some 7 := by decide

end OM
