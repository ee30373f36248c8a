import Verif.Lemmas.Flat

/-! # Components under other names -/

namespace OM
open Spec

section
variable {ρ σ : String → String}

theorem seen_seen (ins : List (String × Nat)) (inp : String → Nat → ℝ) :
    seen σ ins (seen ρ (ins.map fun q => (σ q.1, q.2)) inp) = seen (ρ ∘ σ) ins inp := by
  funext n
  unfold seen
  by_cases h : n ∈ ins.map Prod.fst
  · rw [if_pos h, if_pos h, if_pos]
    · rfl
    · obtain ⟨q, hq, rfl⟩ := List.mem_map.1 h
      exact List.mem_map.2 ⟨_, List.mem_map.2 ⟨q, hq, rfl⟩, rfl⟩
  · rw [if_neg h, if_neg h]

theorem renCoo_renCoo (ins : List (String × Nat)) (P : String → Coo) :
    renCoo ρ (ins.map fun q => (σ q.1, q.2)) (renCoo σ ins P) = renCoo (ρ ∘ σ) ins P := by
  funext n
  unfold renCoo
  rw [List.find?_map]
  cases hf : ins.find? (fun q => (ρ ∘ σ) q.1 == n) with
  | none =>
    rw [show (ins.find? ((fun q : String × Nat => ρ q.1 == n) ∘ fun q => (σ q.1, q.2))) = none from hf]
    rfl
  | some q =>
    rw [show (ins.find? ((fun q : String × Nat => ρ q.1 == n) ∘ fun q => (σ q.1, q.2))) = some q from hf]
    have hq : ins.find? (fun q' => σ q'.1 == σ q.1) = some q := by
      obtain ⟨h1, as, bs, h2, h3⟩ := List.find?_eq_some_iff_append.1 hf
      refine List.find?_eq_some_iff_append.2 ⟨by simp, as, bs, h2, fun a ha => ?_⟩
      have h4 := h3 a ha
      simp only [Bool.not_eq_true', beq_eq_false_iff_ne, ne_eq, beq_iff_eq, Function.comp] at h1 h4 ⊢
      intro h5
      exact h4 (by rw [h5, h1])
    simp only [Option.map_some]
    rw [hq]

theorem rename_rename (b : Built) : (b.rename σ).rename ρ = b.rename (ρ ∘ σ) := by
  unfold Built.rename
  simp only [Built.mk.injEq, List.map_map, true_and]
  refine ⟨rfl, ?_, ?_⟩
  · funext inp
    rw [seen_seen]
  · funext inp
    rw [seen_seen]
    cases b.partials (seen (ρ ∘ σ) b.ins inp) with
    | error e => rfl
    | ok P => simp only [Except.map, renCoo_renCoo]

theorem renOuts_renOuts (c : List (String × Built)) : renOuts ρ (renOuts σ c) = renOuts (ρ ∘ σ) c := by
  unfold renOuts
  rw [List.map_map]
  refine List.map_congr_left fun p _ => ?_
  simp only [Function.comp, rename_rename]

theorem insOf_renOuts (c : List (String × Built)) : insOf (renOuts ρ c) = (insOf c).map fun q => (ρ q.1, q.2) := by
  cases c <;> rfl

theorem rd_renOuts (c : List (String × Built)) : rd (renOuts ρ c) = (rd c).map ρ := by
  unfold rd
  rw [insOf_renOuts, List.map_map, List.map_map]
  rfl

theorem wr_renOuts (c : List (String × Built)) : wr (renOuts ρ c) = (wr c).map ρ := by
  unfold wr renOuts
  rw [List.map_map, List.map_map]
  rfl

/-- Positions of inputs under other names. -/
def slotEquiv (ρ : String → String) (ins : List (String × Nat)) : Slot (ins.map fun q => (ρ q.1, q.2)) ≃ Slot ins where
  toFun s := ⟨⟨s.1.1, by simpa using s.1.2⟩, ⟨s.2.1, by have := s.2.2; simpa using this⟩⟩
  invFun s := ⟨⟨s.1.1, by simpa using s.1.2⟩, ⟨s.2.1, by have := s.2.2; simpa using this⟩⟩
  left_inv s := rfl
  right_inv s := rfl

theorem isJacobian_reindex {κ κ' ι : Type} [Fintype κ] [Fintype κ'] (e : κ' ≃ κ) {F : (κ → ℝ) → ι → ℝ} {x : κ → ℝ}
    {J : ι → κ → ℝ} (h : IsJacobian F x J) :
    IsJacobian (fun y : κ' → ℝ => F fun k => y (e.symm k)) (fun k => x (e k)) fun i k => J i (e k) := by
  intro i
  let L : (κ' → ℝ) →L[ℝ] (κ → ℝ) := ContinuousLinearMap.pi fun k => ContinuousLinearMap.proj (e.symm k)
  have h1 : HasFDerivAt (fun y => F y i) (∑ j, J i j • (ContinuousLinearMap.proj j : (κ → ℝ) →L[ℝ] ℝ))
      (L fun k => x (e k)) := by
    have : L (fun k => x (e k)) = x := by
      funext k
      show x (e (e.symm k)) = x k
      rw [e.apply_symm_apply]
    rw [this]
    exact h i
  refine (h1.comp _ L.hasFDerivAt).congr_fderiv ?_
  ext v
  simp only [ContinuousLinearMap.comp_apply, sum_apply, smul_apply,
    ContinuousLinearMap.proj_apply, smul_eq_mul]
  rw [← e.sum_comp]
  refine Finset.sum_congr rfl fun k _ => ?_
  show _ * v (e.symm (e k)) = _
  rw [e.symm_apply_apply]

/-- Inputs under other names. -/
theorem seen_inputsOf {ins : List (String × Nat)} (hn : (ins.map Prod.fst).Nodup)
    (hi : ∀ a ∈ ins.map Prod.fst, ∀ b ∈ ins.map Prod.fst, ρ a = ρ b → a = b)
    (y : Slot (ins.map fun q => (ρ q.1, q.2)) → ℝ) :
    seen ρ ins (inputsOf (ins.map fun q => (ρ q.1, q.2)) y) = inputsOf ins fun k => y ((slotEquiv ρ ins).symm k) := by
  have hn' : ((ins.map fun q => (ρ q.1, q.2)).map Prod.fst).Nodup := by
    rw [List.map_map, show (Prod.fst ∘ fun q : String × Nat => (ρ q.1, q.2)) = ρ ∘ Prod.fst from rfl, ← List.map_map]
    exact List.Nodup.map_on (fun a ha b hb hab => hi a ha b hb hab) hn
  funext n j
  unfold seen
  split
  · rename_i h
    obtain ⟨q, hq, rfl⟩ := List.mem_map.1 h
    obtain ⟨k, hk, rfl⟩ := List.getElem_of_mem hq
    have hk' : k < (ins.map fun q => (ρ q.1, q.2)).length := by simpa using hk
    have h1 := inputsOf_slot hn' y ⟨k, hk'⟩ j
    have h2 := inputsOf_slot hn (fun k => y ((slotEquiv ρ ins).symm k)) ⟨k, hk⟩ j
    have e1 : (ins.map fun q => (ρ q.1, q.2))[(⟨k, hk'⟩ : Fin _)].1 = ρ ins[k].1 := by simp
    rw [e1] at h1
    rw [h1]
    refine Eq.trans ?_ h2.symm
    by_cases hj : j < ins[k].2
    · rw [dif_pos (show j < ins[(⟨k, hk⟩ : Fin _)].2 from hj), dif_pos (by simpa using hj)]
      rfl
    · rw [dif_neg (show ¬ j < ins[(⟨k, hk⟩ : Fin _)].2 from hj), dif_neg (by simpa using hj)]
  · rename_i h
    have : (List.finRange ins.length).find? (fun k => ins[k].1 == n) = none := by
      refine List.find?_eq_none.2 fun k _ hk => h ?_
      exact List.mem_map.2 ⟨ins[k], List.getElem_mem _, by simpa using hk⟩
    simp only [inputsOf, this]

theorem rename_total (b : Built) (inp : String → Nat → ℝ) : (b.rename ρ).total inp = b.total (seen ρ b.ins inp) := rfl

/-- A component that computes these entries does so under other names. -/
theorem good_rename {b : Built} (hn : (b.ins.map Prod.fst).Nodup)
    (hi : ∀ x ∈ b.ins.map Prod.fst, ∀ y ∈ b.ins.map Prod.fst, ρ x = ρ y → x = y) {s : List Nat} {e : List Nat → ℝ}
    {inp : String → Nat → ℝ} (h : b.Good s e (seen ρ b.ins inp)) : (b.rename ρ).Good s e inp := by
  obtain ⟨P, hP⟩ := h.partials
  have hfind : ∀ q ∈ b.ins, b.ins.find? (fun q' => ρ q'.1 == ρ q.1) = some q := by
    intro q hq
    obtain ⟨k, hk, rfl⟩ := List.getElem_of_mem hq
    cases hf : b.ins.find? (fun q' => ρ q'.1 == ρ b.ins[k].1) with
    | none =>
      have := List.find?_eq_none.1 hf b.ins[k] hq
      simp at this
    | some q' =>
      have h1 : ρ q'.1 = ρ b.ins[k].1 := by simpa using List.find?_some hf
      have h2 := List.mem_of_find?_eq_some hf
      have h3 := hi _ (List.mem_map.2 ⟨q', h2, rfl⟩) _ (List.mem_map.2 ⟨_, hq, rfl⟩) h1
      rw [List.inj_on_of_nodup_map hn h2 hq h3]
  have hP' : (b.rename ρ).partials inp = .ok (renCoo ρ b.ins P) := by
    show (b.partials (seen ρ b.ins inp)).map _ = _
    rw [hP]
    rfl
  have hcoo : ∀ q ∈ b.ins, (b.rename ρ).coo inp (ρ q.1) = b.coo (seen ρ b.ins inp) q.1 := by
    intro q hq
    unfold Built.coo
    rw [hP', hP]
    simp only [renCoo, hfind q hq]
  refine ⟨h.shape, h.value, ⟨_, hP'⟩, ?_, ?_, ?_⟩
  · have h1 := isJacobian_reindex (slotEquiv ρ b.ins) h.exact.jac
    have e1 : (fun k => slots b.ins (seen ρ b.ins inp) (slotEquiv ρ b.ins k)) =
        slots (b.ins.map fun q => (ρ q.1, q.2)) inp := by
      funext k
      unfold slots seen
      have hm : b.ins[(slotEquiv ρ b.ins k).1].1 ∈ b.ins.map Prod.fst := List.mem_map.2 ⟨_, List.getElem_mem _, rfl⟩
      rw [if_pos hm]
      show inp (ρ b.ins[k.1.1].1) k.2 = inp (b.ins.map fun q => (ρ q.1, q.2))[k.1.1].1 k.2
      simp
    rw [e1] at h1
    have e2 : (fun (y : Slot (b.ins.map fun q => (ρ q.1, q.2)) → ℝ) (i : Fin (prodShape b.shape)) =>
        b.total (inputsOf b.ins fun k => y ((slotEquiv ρ b.ins).symm k)) i) =
        fun y (i : Fin (prodShape b.shape)) =>
          (b.rename ρ).total (inputsOf (b.ins.map fun q => (ρ q.1, q.2)) y) i := by
      funext y i
      rw [rename_total, seen_inputsOf hn hi]
    rw [e2] at h1
    have e3 : (fun (i : Fin (prodShape b.shape)) (k : Slot (b.ins.map fun q => (ρ q.1, q.2))) =>
        entry (b.coo (seen ρ b.ins inp) b.ins[(slotEquiv ρ b.ins k).1].1) i (slotEquiv ρ b.ins k).2) =
        fun (i : Fin (prodShape b.shape)) (k : Slot (b.ins.map fun q => (ρ q.1, q.2))) =>
          entry ((b.rename ρ).coo inp (b.ins.map fun q => (ρ q.1, q.2))[k.1].1) i k.2 := by
      funext i k
      have hm : b.ins[(slotEquiv ρ b.ins k).1] ∈ b.ins := List.getElem_mem _
      rw [← hcoo _ hm]
      have hk : ρ b.ins[(slotEquiv ρ b.ins k).1].1 = (b.ins.map fun q => (ρ q.1, q.2))[k.1].1 := by
        show ρ b.ins[k.1.1].1 = (b.ins.map fun q => (ρ q.1, q.2))[k.1.1].1
        simp
      rw [hk]
      rfl
    rw [e3] at h1
    exact h1
  · intro p hp c hc
    obtain ⟨q, hq, rfl⟩ := List.mem_map.1 hp
    rw [hcoo q hq] at hc
    exact h.exact.cols q hq c hc
  · intro p hp c hc
    obtain ⟨q, hq, rfl⟩ := List.mem_map.1 hp
    rw [hcoo q hq] at hc
    exact h.exact.rows q hq c hc

variable {size : String → Nat}

theorem shaped_ren {c : List (String × Built)} (h : Shaped (size ∘ ρ) c)
    (hr : ∀ x ∈ rd c, ∀ y ∈ rd c, ρ x = ρ y → x = y) (hw : ∀ x ∈ wr c, ∀ y ∈ wr c, ρ x = ρ y → x = y) :
    Shaped size (renOuts ρ c) := by
  refine ⟨?_, ?_, ?_, ?_, ?_⟩
  · rw [rd_renOuts]
    exact List.Nodup.map_on (fun a ha b hb hab => hr a ha b hb hab) h.nodup
  · intro p hp
    obtain ⟨q, hq, rfl⟩ := List.mem_map.1 hp
    rw [insOf_renOuts, ← h.ins q hq]
    rfl
  · intro p hp
    rw [insOf_renOuts] at hp
    obtain ⟨q, hq, rfl⟩ := List.mem_map.1 hp
    exact h.sizeIn q hq
  · intro p hp
    obtain ⟨q, hq, rfl⟩ := List.mem_map.1 hp
    exact h.sizeOut q hq
  · intro p hp p' hp' e
    obtain ⟨q, hq, rfl⟩ := List.mem_map.1 hp
    obtain ⟨q', hq', rfl⟩ := List.mem_map.1 hp'
    rw [h.inj q hq q' hq' (hw _ (List.mem_map.2 ⟨q, hq, rfl⟩) _ (List.mem_map.2 ⟨q', hq', rfl⟩) e)]

theorem holds_ren {c : List (String × Built)} (h : Shaped size c) (hr : ∀ x ∈ rd c, ∀ y ∈ rd c, ρ x = ρ y → x = y)
    {arr : String → Nat → ℝ} (hh : Holds (arr ∘ ρ) c) : Holds arr (renOuts ρ c) := by
  intro inp hin p hp
  obtain ⟨q, hq, rfl⟩ := List.mem_map.1 hp
  have hi := h.ins q hq
  refine good_rename (by rw [hi]; exact h.nodup) (by rw [hi]; exact hr) (hh _ ?_ q hq)
  intro n hn
  unfold seen
  rw [if_pos (by rw [hi]; exact hn)]
  exact hin _ (by rw [rd_renOuts]; exact List.mem_map.2 ⟨n, hn, rfl⟩)

theorem ordered_ren {cs : List (List (String × Built))} (h : Ordered cs)
    (hi : ∀ c ∈ cs, ∀ c' ∈ cs, ∀ x ∈ rd c ++ wr c, ∀ y ∈ rd c' ++ wr c', ρ x = ρ y → x = y) :
    Ordered (cs.map (renOuts ρ)) := by
  refine ⟨?_, ?_⟩
  · rw [List.pairwise_map]
    refine List.Pairwise.imp_of_mem ?_ h.own
    intro c c' hc hc' ho n hn hn'
    rw [wr_renOuts] at hn hn'
    obtain ⟨x, hx, rfl⟩ := List.mem_map.1 hn
    obtain ⟨y, hy, hyx⟩ := List.mem_map.1 hn'
    rw [hi c' hc' c hc y (by simp [hy]) x (by simp [hx]) hyx] at hy
    exact ho x hx hy
  · intro p c q e n hn
    obtain ⟨p', t, rfl, rfl, ht⟩ := List.map_eq_append_iff.1 e
    obtain ⟨c', q', rfl, rfl, rfl⟩ := List.map_eq_cons_iff.1 ht
    rw [rd_renOuts] at hn
    obtain ⟨x, hx, rfl⟩ := List.mem_map.1 hn
    rcases h.reads p' c' q' rfl x hx with ⟨d, hd, hxd⟩ | hf
    · exact Or.inl ⟨renOuts ρ d, List.mem_map.2 ⟨d, hd, rfl⟩, by rw [wr_renOuts]; exact List.mem_map.2 ⟨x, hxd, rfl⟩⟩
    · refine Or.inr fun d hd hxd => ?_
      obtain ⟨d', hd', rfl⟩ := List.mem_map.1 hd
      rw [wr_renOuts] at hxd
      obtain ⟨y, hy, hyx⟩ := List.mem_map.1 hxd
      rw [hi d' hd' c' (by simp) y (by simp [hy]) x (by simp [hx]) hyx] at hy
      exact hf d' hd' hy

/-- What a component reads under other names. -/
theorem seen_lookup {ins : List (String × Nat)} (S : Store (FlatArr size)) :
    seen ρ ins (lookup (reads := (ins.map fun q => (ρ q.1, q.2)).map Prod.fst) fun i =>
        S ((ins.map fun q => (ρ q.1, q.2)).map Prod.fst)[i]) =
      lookup (size := size ∘ ρ) (reads := ins.map Prod.fst) fun i => S (ρ (ins.map Prod.fst)[i]) := by
  funext n j
  unfold seen
  split
  · rename_i h
    have h' : ρ n ∈ (ins.map fun q => (ρ q.1, q.2)).map Prod.fst := by
      obtain ⟨q, hq, rfl⟩ := List.mem_map.1 h
      exact List.mem_map.2 ⟨_, List.mem_map.2 ⟨q, hq, rfl⟩, rfl⟩
    rw [lookup_store S h' j]
    exact (lookup_store (size := size ∘ ρ) (fun n => S (ρ n)) h j).symm
  · rename_i h
    have : (List.finRange (ins.map Prod.fst).length).find? (fun k => (ins.map Prod.fst)[k] == n) = none := by
      refine List.find?_eq_none.2 fun k _ hk => h ?_
      rw [← (show (ins.map Prod.fst)[k] = n by simpa using hk)]
      exact List.getElem_mem _
    simp only [lookup, this]

theorem findSome?_congr' {α β : Type} {f g : α → Option β} {l : List α} (h : ∀ a ∈ l, f a = g a) :
    l.findSome? f = l.findSome? g := by
  induction l with
  | nil => rfl
  | cons a l ih =>
    simp only [List.findSome?_cons]
    rw [h a (by simp), ih fun b hb => h b (by simp [hb])]

/-- Under its own names a component is itself. -/
theorem renOuts_id {c : List (String × Built)} (h : ∀ p ∈ c, p.2.ins = insOf c) :
    outsCompE size (renOuts id c) = outsCompE size c := by
  have hsee : ∀ (x : (i : Fin ((insOf c).map Prod.fst).length) → FlatArr size ((insOf c).map Prod.fst)[i]),
      seen id (insOf c) (lookup x) = lookup x := by
    intro x
    funext n
    unfold seen
    split
    · rfl
    · rename_i h
      have : (List.finRange ((insOf c).map Prod.fst).length).find? (fun k => ((insOf c).map Prod.fst)[k] == n) = none := by
        refine List.find?_eq_none.2 fun k _ hk => h ?_
        rw [← (show ((insOf c).map Prod.fst)[k] = n by simpa using hk)]
        exact List.getElem_mem _
      funext j
      simp only [lookup, this]
  have key : ∀ (ins : List (String × Nat)), ins = insOf c →
      (⟨ins.map Prod.fst, (renOuts id c).map Prod.fst, fun x =>
        match (renOuts id c).findSome? fun p => p.2.raised (lookup x) with
        | some e => .error e
        | none => .ok fun n i =>
          match (renOuts id c).find? fun p => p.1 == n with
          | none => 0
          | some p => p.2.total (lookup x) i⟩ : CompE (FlatArr size)) = outsCompE size c := by
    rintro _ rfl
    unfold outsCompE
    have e1 : (renOuts id c).map Prod.fst = c.map Prod.fst := by
      unfold renOuts
      rw [List.map_map]
      rfl
    rw [e1]
    congr 1
    funext x
    have e2 : ((renOuts id c).findSome? fun p => p.2.raised (lookup x)) = c.findSome? fun p => p.2.raised (lookup x) := by
      unfold renOuts
      rw [List.findSome?_map]
      refine findSome?_congr' fun p hp => ?_
      show Built.raised (p.2.rename id) (lookup x) = _
      unfold Built.raised Built.rename
      simp only
      rw [h p hp, hsee]
    rw [e2]
    cases c.findSome? fun p => p.2.raised (lookup x) with
    | some e => rfl
    | none =>
      simp only [Except.ok.injEq]
      funext n i
      have e3 : ((renOuts id c).find? fun p => p.1 == n) = (c.find? fun p => p.1 == n).map fun p => (p.1, p.2.rename id) := by
        unfold renOuts
        rw [List.find?_map]
        rfl
      rw [e3]
      cases hf : c.find? fun p => p.1 == n with
      | none => rfl
      | some p =>
        simp only [Option.map_some]
        rw [rename_total, h p (List.mem_of_find?_eq_some hf), hsee]
  exact key _ (by rw [insOf_renOuts]; simp)

end
end OM
