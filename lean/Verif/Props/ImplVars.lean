import Verif.Model.ImplVars
import Verif.Props.Operands
import Verif.Props.Data

/-! # Shapes and initial values of the variables of implicit components (C79) -/

namespace OM

theorem declareAll_ok {ds : List InputDecl} {l : List (String × NdArr)} (h : declareAll ds = .ok l) :
    List.Forall₂ (fun d (p : String × NdArr) => p.1 = d.name ∧ d.initial = .ok p.2) ds l := by
  refine (mapM_forall₂ h).imp fun d p hp => ?_
  split at hp
  · rename_i v hv
    cases hp
    exact ⟨rfl, hv⟩
  · cases hp

theorem implCompVars_ok {rs : List ImplResidual} {outs ins : List (String × NdArr)} (h : implCompVars rs = .ok (outs, ins)) :
    declareAll (rs.map ImplResidual.outDecl) = .ok outs ∧ declareAll (rs.flatMap ImplResidual.inDecls) = .ok ins := by
  unfold implCompVars at h
  split at h
  · rename_i h1 h2
    cases h
    exact ⟨h1, h2⟩
  · cases h
  · cases h

theorem forall₂_mem_left {α β : Type} {R : α → β → Prop} {l : List α} {l' : List β} (h : List.Forall₂ R l l') {a : α}
    (ha : a ∈ l) : ∃ b ∈ l', R a b := by
  induction h with
  | nil => simp at ha
  | cons hab _ ih =>
    rcases List.mem_cons.1 ha with rfl | ha
    · exact ⟨_, by simp, hab⟩
    · obtain ⟨b, hb, hr⟩ := ih ha
      exact ⟨b, by simp [hb], hr⟩

theorem forall₂_map_left {α β γ : Type} {R : β → γ → Prop} {f : α → β} {l : List α} {l' : List γ}
    (h : List.Forall₂ R (l.map f) l') : List.Forall₂ (fun a c => R (f a) c) l l' := by
  induction l generalizing l' with
  | nil => cases h; exact .nil
  | cons a l ih =>
    cases h with
    | cons h1 h2 => exact .cons h1 (ih h2)

/-- **C79**, inputs: the component has for every input with a declared value that a residual depends on (other than the
residual's own output) an input of this shape with this initial value, and no others. -/
theorem c79_inputs {rs : List ImplResidual} {outs ins : List (String × NdArr)} (h : implCompVars rs = .ok (outs, ins)) :
    (∀ r ∈ rs, ∀ x ∈ r.inputs, x.name ≠ r.out → x.val.shape = x.shape →
      ∃ v, (x.name, v) ∈ ins ∧ v.shape = x.shape ∧ v.data = x.val.data) ∧
    ∀ p ∈ ins, ∃ r ∈ rs, ∃ x ∈ r.inputs, x.name = p.1 ∧ x.name ≠ r.out ∧
      (x.val.shape = x.shape → p.2.shape = x.shape ∧ p.2.data = x.val.data) := by
  have hf := declareAll_ok (implCompVars_ok h).2
  refine ⟨fun r hr x hx hne hd => ?_, fun p hp => ?_⟩
  · obtain ⟨p, hp, h1, h2⟩ := forall₂_mem_left hf (a := ⟨x.name, some x.shape, some x.val⟩)
      (List.mem_flatMap.2 ⟨r, hr, List.mem_map.2 ⟨x, List.mem_filter.2 ⟨hx, by simpa using hne⟩, rfl⟩⟩)
    obtain ⟨h3, h4⟩ := initial_some hd h2
    have h1 : p.1 = x.name := h1
    exact ⟨p.2, by rw [← h1]; exact hp, h4, h3⟩
  · obtain ⟨d, hd, h1, h2⟩ := forall₂_mem_right hf hp
    obtain ⟨r, hr, hd⟩ := List.mem_flatMap.1 hd
    obtain ⟨x, hx, rfl⟩ := List.mem_map.1 hd
    obtain ⟨hx, hne⟩ := List.mem_filter.1 hx
    exact ⟨r, hr, x, hx, h1.symm, by simpa using hne, fun hs => (initial_some hs h2).symm⟩

/-- **C79**, outputs, what the code does: the output of a residual that was computed has the shape of the residual, and
all its entries start from one. -/
theorem c79_outputs {rs : List ImplResidual} {outs ins : List (String × NdArr)} (h : implCompVars rs = .ok (outs, ins))
    (hc : ∀ r ∈ rs, r.expr.val = ⟨[1], [1], rfl⟩) :
    List.Forall₂ (fun (r : ImplResidual) (p : String × NdArr) =>
      p.1 = r.out ∧ p.2.shape = r.expr.shape ∧ ∀ x ∈ p.2.data, x = 1) rs outs := by
  have hf := forall₂_map_left (declareAll_ok (implCompVars_ok h).1)
  clear h
  induction hf with
  | nil => exact .nil
  | cons h1 _ ih =>
    rename_i r p rs outs _
    refine .cons ⟨h1.1, ?_⟩ (ih fun r hr => hc r (by simp [hr]))
    have h2 := h1.2
    unfold ImplResidual.outDecl InputDecl.initial at h2
    simp only [hc r (by simp)] at h2
    rw [if_pos trivial] at h2
    have h3 := Except.ok.inj h2
    rw [← h3]
    refine ⟨rfl, fun x hx => ?_⟩
    simpa using (List.eq_of_mem_replicate hx)

/-- **C79, refuted.** An output was created with `create_implicit_output(out, shape, val)`, so has shape `s` and value
`v`; its residual was computed. The output of the component has this shape only if the residual has it, and this value
only if every entry of it is one. -/
theorem c79_violated {rs : List ImplResidual} {outs ins : List (String × NdArr)} (h : implCompVars rs = .ok (outs, ins))
    {r : ImplResidual} (hr : r ∈ rs) (hn : (rs.map ImplResidual.out).Nodup) (hc : ∀ r ∈ rs, r.expr.val = ⟨[1], [1], rfl⟩)
    {shape : List Nat} {val : PyVal} {s : List Nat} {v : NdArr} (hcreate : getShapeVal shape val = .ok (s, v)) :
    ∃ w, (∀ w', (r.out, w') ∈ outs ↔ w' = w) ∧ (w.shape = s ↔ r.expr.shape = s) ∧
      (r.expr.shape = s → (w.data = v.data ↔ ∀ x ∈ v.data, x = 1)) := by
  have hf := c79_outputs h hc
  obtain ⟨p, hp, h1, h2, h3⟩ := forall₂_mem_left hf hr
  refine ⟨p.2, fun w' => ⟨fun hw => ?_, ?_⟩, by rw [h2], fun he => ⟨?_, fun hv => ?_⟩⟩
  · have hnames : outs.map Prod.fst = rs.map ImplResidual.out := by
      clear h hr hn hc hp hw
      induction hf with
      | nil => rfl
      | cons ha _ ih => rw [List.map_cons, List.map_cons, ha.1, ih]
    rw [← hnames] at hn
    have := List.inj_on_of_nodup_map hn hw hp (by rw [h1])
    rw [← this]
  · rintro rfl
    rw [← h1]; exact hp
  · intro hd
    rw [← hd]; exact h3
  · have h4 := (c51_agree hcreate).2.1
    have h5 := p.2.size
    rw [h2, he] at h5
    rw [List.eq_replicate_of_mem h3, List.eq_replicate_of_mem hv, h4, h5]

/-- The output `y` was created with the value three; its residual is an expression; the component depends on `x`, which
was declared with the value two. -/
def guessed : ImplResidual :=
  ⟨⟨"r", [⟨1, false⟩], ⟨[1], [1], rfl⟩⟩, "y", [⟨"x", [⟨1, false⟩], npFull [1] 2⟩, ⟨"y", [⟨1, false⟩], npFull [1] 3⟩]⟩

theorem guessed_vars : implCompVars [guessed] = .ok ([("y", npFull [1] 1)], [("x", npFull [1] 2)]) := by
  simp [implCompVars, declareAll, guessed, ImplResidual.outDecl, ImplResidual.inDecls, InputDecl.initial, ReadVar.shape,
    npFull, prodShape]

example : ∃ w, (∀ w', ("y", w') ∈ [("y", npFull [1] 1)] ↔ w' = w) ∧ w.data ≠ (npFull [1] 3).data := by
  obtain ⟨w, h1, _, h3⟩ := c79_violated guessed_vars (r := guessed) (by simp) (by simp)
    (by simp [guessed]) (shape := [1]) (val := .number 3) rfl
  refine ⟨w, h1, fun hc => ?_⟩
  have := (h3 rfl).1 hc 3 (by simp [npFull, prodShape])
  norm_num at this

end OM
