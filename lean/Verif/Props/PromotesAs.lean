import Verif.Model.PromotesAs
import Verif.Props.Promotes

/-! # C68, promotion under another name -/

namespace OM

/-- The user asked for the variable to be promoted as `name`. -/
def AskedAs (c : RenamingCall) (v : SubVar) (name : String) : Prop :=
  (v.name, name) ∈ c.pairs.any ∨ (v.output = true ∧ (v.name, name) ∈ c.pairs.outputs) ∨
    (v.output = false ∧ (v.name, name) ∈ c.pairs.inputs)

/-- Nothing is asked for under two names. -/
def RenamingCall.Clear (c : RenamingCall) : Prop := ∀ v n m, AskedAs c v n → AskedAs c v m → n = m

/-- `name` is what the user, knowing OpenMDAO, expects the variable to be called in the group. -/
def ExpectedAs (c : RenamingCall) (v : SubVar) (name : String) : Prop :=
  (∀ n, AskedAs c v n → name = n) ∧ ((∀ n, ¬ AskedAs c v n) → Expected c.call v name)

theorem askedAs_iff (c : RenamingCall) (v : SubVar) (n : String) :
    AskedAs c v n ↔ (v.name, n) ∈ c.pairs.any ++ if v.output then c.pairs.outputs else c.pairs.inputs := by
  unfold AskedAs
  cases v.output <;> simp

/-- **C68** (partial), pairs: the variables of a group added as subsystem are called as asked. Missing: components, for
which this is false, see `c68_renamed_component`. -/
theorem c68_renamed_group_partial {c : RenamingCall} (hc : c.Clear) (hg : c.call.group = true) (v : SubVar) :
    ExpectedAs c v (c.called v) := by
  have h1 : c.called v = promotedAs c.call.name c.call.promotes c.pairs v := by
    simp only [RenamingCall.called, RenamingCall.handed, hg, if_true]
  have h2 : c.call.called v = promotedName c.call.name c.call.promotes v := by
    simp only [SubCall.called, SubCall.handed, hg, if_true]
  rw [h1]
  unfold promotedAs
  cases hf : (c.pairs.any ++ if v.output then c.pairs.outputs else c.pairs.inputs).find? fun q => q.1 == v.name with
  | some q =>
    have hq : q.1 = v.name := by simpa using List.find?_some hf
    have hm : AskedAs c v q.2 := (askedAs_iff c v q.2).2 (by rw [← hq]; exact List.mem_of_find?_eq_some hf)
    exact ⟨fun n hn => hc v _ _ hm hn, fun h => absurd hm (h q.2)⟩
  | none =>
    refine ⟨fun n hn => ?_, fun _ => ?_⟩
    · have := List.find?_eq_none.1 hf _ ((askedAs_iff c v n).1 hn)
      simp at this
    · rw [← h2]
      exact c68_group_partial hg v

/-- All variables of a component keep their names, whatever pairs were given. -/
theorem renamed_component {c : RenamingCall} (hg : c.call.group = false) (v : SubVar) : c.called v = v.name := by
  simp [RenamingCall.called, RenamingCall.handed, hg, promotedAs, promotedName]

/-- The code violates **C68** for components, exactly: a variable of a component is called as expected if and only if the
user asked for its own name. -/
theorem c68_renamed_component {c : RenamingCall} (hg : c.call.group = false) (v : SubVar) :
    ExpectedAs c v (c.called v) ↔
      (∀ n, AskedAs c v n → n = v.name) ∧ ((∀ n, ¬ AskedAs c v n) → Asked c.call v) := by
  rw [renamed_component hg]
  unfold ExpectedAs
  have := c68_component hg v
  rw [called_component hg] at this
  rw [this]
  exact and_congr_left fun _ => forall_congr' fun n => imp_congr_right fun _ => eq_comm

/-- In particular no component is connected under another name: with the pair `(x, y)` its variable `x` is still called
`x`. -/
theorem c68_renamed_violated {x y : String} (hxy : x ≠ y) (name : String) (vars : List SubVar) (out : Bool) :
    let c : RenamingCall := ⟨⟨name, false, vars, ⟨[], [], []⟩⟩, ⟨[(x, y)], [], []⟩⟩
    c.called ⟨x, out⟩ = x ∧ ¬ ExpectedAs c ⟨x, out⟩ (c.called ⟨x, out⟩) := by
  intro c
  refine ⟨renamed_component rfl _, ?_⟩
  rw [c68_renamed_component rfl]
  rintro ⟨h, _⟩
  exact hxy (h y (.inl (by simp [c]))).symm

/-- A group with one variable under another name and one by its own. -/
example : let c : RenamingCall := ⟨⟨"g", true, [⟨"x", false⟩, ⟨"z", true⟩], ⟨[fun _ => true], [], []⟩⟩,
      ⟨[("x", "y")], [], []⟩⟩
    c.Clear ∧ c.called ⟨"x", false⟩ = "y" ∧ c.called ⟨"z", true⟩ = "z" := by
  refine ⟨?_, by decide, by decide⟩
  rintro v n m (h | ⟨_, h⟩ | ⟨_, h⟩) (h' | ⟨_, h'⟩ | ⟨_, h'⟩) <;> simp_all

end OM
