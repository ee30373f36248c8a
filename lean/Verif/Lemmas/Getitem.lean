import Verif.Lemmas.Indexing

namespace OM
open Spec

/-- Shape and flat indices computed for a key that is used for the first time (the last part of
`getDecomposed`). -/
def entryFor (shape valShape : List Nat) (key : NKey) : Except PyErr (List Nat × List Nat) :=
  match keyLists key with
  | .error e => .error e
  | .ok ls =>
    match ravelGrid shape ls with
    | .error e => .error e
    | .ok src =>
      if ∃ i ∈ src, prodShape shape ≤ i then .error .valueError
      else
        match npIndexShape valShape (key.map fun s => .slice (some s.1) (some s.2.1) s.2.2) with
        | .error e => .error e
        | .ok sh => .ok (sh, src)

theorem getDecomposed_eq (v : IVar) (dict : List (NKey × IndexedExpr)) (key : NKey) :
    getDecomposed v dict key = match dict.find? (fun p => p.1 == key) with
      | some p => (v, .ok p.2)
      | none => match entryFor v.shape v.valShape key with
        | .error e => (v, .error e)
        | .ok (sh, src) =>
          ({ v with decomp := some (dict ++ [(key, ⟨v.fresh, sh, src⟩)]), fresh := v.fresh + 1 },
            .ok ⟨v.fresh, sh, src⟩) := by
  unfold getDecomposed entryFor
  cases dict.find? (fun p => p.1 == key) with
  | some p => rfl
  | none =>
    simp only
    cases keyLists key with
    | error e => rfl
    | ok ls =>
      simp only
      cases ravelGrid v.shape ls with
      | error e => rfl
      | ok src =>
        simp only
        split
        · rfl
        · cases npIndexShape v.valShape (key.map fun s => .slice (some s.1) (some s.2.1) s.2.2) with
          | error e => rfl
          | ok sh => rfl

/-- What is always true of a variable's dictionary of indexed expressions. -/
structure IVar.Ok (v : IVar) : Prop where
  called : v.called = false → v.decomp = none
  entries : ∀ dict, v.decomp = some dict →
    ∀ p ∈ dict, entryFor v.shape v.valShape p.1 = .ok (p.2.shape, p.2.src)
  keys : ∀ dict, v.decomp = some dict → (dict.map (·.1)).Nodup
  ids : ∀ dict, v.decomp = some dict → (dict.map (·.2.id)).Nodup
  fresh : ∀ dict, v.decomp = some dict → ∀ p ∈ dict, p.2.id < v.fresh

theorem ivar_new_ok (shape valShape : List Nat) : (IVar.new shape valShape).Ok :=
  ⟨fun _ => rfl, fun _ h => by simp [IVar.new] at h, fun _ h => by simp [IVar.new] at h,
    fun _ h => by simp [IVar.new] at h, fun _ h => by simp [IVar.new] at h⟩

/-- All facts about one read. -/
structure ReadFacts (v : IVar) (key : Key) (r : IVar × Except PyErr IndexedExpr) : Prop where
  shape : r.1.shape = v.shape
  valShape : r.1.valShape = v.valShape
  ok : r.1.Ok
  /-- the dictionary only grows -/
  grows : ∀ dict, v.decomp = some dict → ∃ more, r.1.decomp = some (dict ++ more)
  /-- once lost, always lost -/
  lost : v.called = true → v.decomp = none → r.1 = v ∧ ∃ e, r.2 = .error e
  result : ∀ ex, r.2 = .ok ex → ∃ k dict, normKey v.shape key = .ok k ∧ r.1.decomp = some dict ∧
    (k, ex) ∈ dict ∧ entryFor v.shape v.valShape k = .ok (ex.shape, ex.src)
  failure : ∀ e, r.2 = .error e → (∃ dict, v.decomp = some dict) → r.1 = v

theorem firstUse_ok {v : IVar} (h : v.Ok) (key : Key) : (firstUse v key).1.Ok := by
  unfold firstUse
  split
  · exact h
  · rename_i hc
    have hd := h.called (by simpa using hc)
    split
    · exact ⟨fun h => by simp at h, fun _ h => by simp [hd] at h, fun _ h => by simp [hd] at h,
        fun _ h => by simp [hd] at h, fun _ h => by simp [hd] at h⟩
    · refine ⟨fun h => by simp at h, ?_, ?_, ?_, ?_⟩ <;> intro dict h <;> cases h <;> simp

theorem getItem_facts {v : IVar} (h : v.Ok) (key : Key) : ReadFacts v key (getItem v key) := by
  have hf : ∀ v1 o, firstUse v key = (v1, o) → v1.shape = v.shape ∧ v1.valShape = v.valShape ∧
      v1.Ok ∧ (∀ dict, v.decomp = some dict → v1 = v ∧ o = none) ∧
      (v.called = true → v1 = v ∧ o = none) ∧ (o ≠ none → v.called = false) := by
    intro v1 o hv1
    have h1 := firstUse_ok h key
    rw [hv1] at h1
    have hcd : ∀ dict, v.decomp = some dict → v.called = true := by
      intro dict hd
      by_contra hc
      rw [h.called (by simpa using hc)] at hd
      cases hd
    unfold firstUse at hv1
    split at hv1
    · cases hv1
      exact ⟨rfl, rfl, h, fun _ _ => ⟨rfl, rfl⟩, fun _ => ⟨rfl, rfl⟩, fun hne => absurd rfl hne⟩
    · rename_i hc
      split at hv1 <;> cases hv1 <;>
        exact ⟨rfl, rfl, h1, fun d hd => absurd (hcd d hd) hc, fun hc' => absurd hc' hc,
          fun _ => by simpa using hc⟩
  unfold getItem
  cases hfu : firstUse v key with
  | mk v1 o =>
    obtain ⟨e1, e2, ok1, f1, f2, f3⟩ := hf v1 o hfu
    cases o with
    | some e =>
      refine ⟨e1, e2, ok1, fun d hd => absurd (f1 d hd).2 (by simp), fun hc => ?_, ?_, ?_⟩
      · have := (f2 hc).2; simp at this
      · intro ex hex; simp at hex
      · rintro e' _ ⟨d, hd⟩; simpa using (f1 d hd).2
    | none =>
      simp only
      rw [e1]
      cases hk : normKey v.shape key with
      | error e =>
        refine ⟨e1, e2, ok1, fun d hd => ⟨[], ?_⟩, fun hc hn => ⟨(f2 hc).1, e, rfl⟩, ?_, ?_⟩
        · simp [(f1 d hd).1, hd]
        · intro ex hex; simp at hex
        · rintro e' _ ⟨d, hd⟩; exact (f1 d hd).1
      | ok k =>
        simp only
        cases hd1 : v1.decomp with
        | none =>
          refine ⟨e1, e2, ok1, fun d hd => ?_, fun hc hn => ⟨(f2 hc).1, _, rfl⟩, ?_, ?_⟩
          · rw [(f1 d hd).1, hd] at hd1; cases hd1
          · intro ex hex; simp at hex
          · rintro e' _ ⟨d, hd⟩; exact (f1 d hd).1
        | some dict =>
          simp only
          rw [getDecomposed_eq]
          cases hfind : dict.find? (fun p => p.1 == k) with
          | some p =>
            simp only
            have hp := List.find?_some hfind
            have hm := List.mem_of_find?_eq_some hfind
            have hpk : p.1 = k := by simpa using hp
            refine ⟨e1, e2, ok1, fun d hd => ⟨[], ?_⟩, fun hc hn => ?_, ?_, ?_⟩
            · simp [(f1 d hd).1, hd]
            · rw [(f2 hc).1, hn] at hd1; cases hd1
            · intro ex hex
              simp only [Except.ok.injEq] at hex
              subst hex
              have hent := ok1.entries dict hd1 p hm
              rw [e1, e2, hpk] at hent
              exact ⟨k, dict, hk, hd1, by rw [← hpk]; exact hm, hent⟩
            · rintro e' _ ⟨d, hd⟩; exact (f1 d hd).1
          | none =>
            simp only
            have hnk : ∀ p ∈ dict, p.1 ≠ k := by
              intro p hp hpk
              have := List.find?_eq_none.1 hfind p hp
              simp [hpk] at this
            cases hent : entryFor v1.shape v1.valShape k with
            | error e =>
              simp only
              refine ⟨e1, e2, ok1, fun d hd => ⟨[], ?_⟩, fun hc hn => ?_, ?_, ?_⟩
              · simp [(f1 d hd).1, hd]
              · rw [(f2 hc).1, hn] at hd1; cases hd1
              · intro ex hex; simp at hex
              · rintro e' _ ⟨d, hd⟩; exact (f1 d hd).1
            | ok r =>
              obtain ⟨sh, src⟩ := r
              simp only
              refine ⟨e1, e2, ⟨?_, ?_, ?_, ?_, ?_⟩, fun d hd => ?_, fun hc hn => ?_, ?_, ?_⟩
              · intro hc
                simp only at hc
                rw [ok1.called hc] at hd1; cases hd1
              · intro d hd p hp
                cases hd
                rcases List.mem_append.1 hp with hp | hp
                · exact ok1.entries dict hd1 p hp
                · obtain rfl := List.mem_singleton.1 hp
                  exact hent
              · intro d hd
                cases hd
                rw [List.map_append, List.nodup_append]
                refine ⟨ok1.keys dict hd1, by simp, ?_⟩
                intro a ha b hb hab
                obtain ⟨p, hp, rfl⟩ := List.mem_map.1 ha
                have : b = k := by simpa using hb
                exact hnk p hp (hab.trans this)
              · intro d hd
                cases hd
                rw [List.map_append, List.nodup_append]
                refine ⟨ok1.ids dict hd1, by simp, ?_⟩
                intro a ha b hb hab
                obtain ⟨p, hp, rfl⟩ := List.mem_map.1 ha
                have hb' : b = v1.fresh := by simpa using hb
                have := ok1.fresh dict hd1 p hp
                omega
              · intro d hd p hp
                cases hd
                simp only
                rcases List.mem_append.1 hp with hp | hp
                · have := ok1.fresh dict hd1 p hp; omega
                · obtain rfl := List.mem_singleton.1 hp
                  simp
              · have : v1.decomp = some d := by rw [(f1 d hd).1, hd]
                rw [hd1] at this
                cases this
                exact ⟨_, rfl⟩
              · rw [(f2 hc).1, hn] at hd1; cases hd1
              · intro ex hex
                simp only [Except.ok.injEq] at hex
                subst hex
                rw [e1, e2] at hent
                exact ⟨k, _, hk, rfl, by simp, hent⟩
              · intro e' he'; simp at he'

theorem getItems_ok {v : IVar} (h : v.Ok) (keys : List Key) :
    (getItems v keys).Ok ∧ (getItems v keys).shape = v.shape ∧
      (getItems v keys).valShape = v.valShape ∧
      (∀ dict, v.decomp = some dict → ∃ more, (getItems v keys).decomp = some (dict ++ more)) ∧
      (v.called = true → v.decomp = none → getItems v keys = v) := by
  induction keys generalizing v with
  | nil => exact ⟨h, rfl, rfl, fun d hd => ⟨[], by simp [getItems, hd]⟩, fun _ _ => rfl⟩
  | cons k ks ih =>
    have f := getItem_facts h k
    obtain ⟨i1, i2, i3, i4, i5⟩ := ih f.ok
    refine ⟨i1, i2.trans f.shape, i3.trans f.valShape, fun d hd => ?_, fun hc hn => ?_⟩
    · obtain ⟨m, hm⟩ := f.grows d hd
      obtain ⟨m', hm'⟩ := i4 _ hm
      exact ⟨m ++ m', by rw [← List.append_assoc]; exact hm'⟩
    · have e := (f.lost hc hn).1
      show getItems (getItem v k).1 ks = v
      rw [i5 (by rw [e]; exact hc) (by rw [e]; exact hn), e]

/-- A key is accepted if its entry can be computed and `_decomp` exists (or is made by this call). -/
theorem getItem_accepts {v : IVar} (h : v.Ok) {key : Key} {k : NKey} {sh src : List Nat}
    (hready : (∃ dict, v.decomp = some dict) ∨
      (v.called = false ∧ ∃ s, npIndexShape v.valShape key.items = .ok s))
    (hk : normKey v.shape key = .ok k) (hent : entryFor v.shape v.valShape k = .ok (sh, src)) :
    ∃ ex, (getItem v key).2 = .ok ex ∧ ex.shape = sh ∧ ex.src = src := by
  have main : ∀ v1 dict, v1.Ok → v1.shape = v.shape → v1.valShape = v.valShape →
      v1.decomp = some dict → ∃ ex, (getDecomposed v1 dict k).2 = .ok ex ∧ ex.shape = sh ∧ ex.src = src := by
    intro v1 dict ok1 e1 e2 hd1
    rw [getDecomposed_eq]
    cases hfind : dict.find? (fun p => p.1 == k) with
    | some p =>
      simp only
      have hm := List.mem_of_find?_eq_some hfind
      have hpk : p.1 = k := by simpa using List.find?_some hfind
      have := ok1.entries dict hd1 p hm
      rw [e1, e2, hpk, hent] at this
      simp only [Except.ok.injEq, Prod.mk.injEq] at this
      exact ⟨_, rfl, this.1.symm, this.2.symm⟩
    | none =>
      simp only
      rw [e1, e2, hent]
      exact ⟨_, rfl, rfl, rfl⟩
  unfold getItem
  rcases hready with ⟨dict, hd⟩ | ⟨hc, s, hs⟩
  · have hc : v.called = true := by
      by_contra hc
      rw [h.called (by simpa using hc)] at hd
      cases hd
    have : firstUse v key = (v, none) := by unfold firstUse; rw [if_pos hc]
    rw [this]
    simp only [hk, hd]
    exact main v dict h rfl rfl hd
  · have hf : firstUse v key =
        ({ v with called := true, decomp := some [], fresh := v.fresh + 1 }, none) := by
      unfold firstUse
      rw [if_neg (by simp [hc]), hs]
    have ok1 := firstUse_ok h key
    rw [hf] at ok1 ⊢
    simp only [hk]
    exact main _ [] ok1 rfl rfl rfl

end OM
