import Verif.Model.Promotes
import Mathlib.Data.List.Nodup

/-!
# C68: promotions asked for are the ones that happen
-/

namespace OM

/-- The user asked for the variable to be promoted. -/
def Asked (c : SubCall) (v : SubVar) : Prop :=
  (∃ f ∈ c.promotes.any, f v.name = true) ∨ (v.output = true ∧ ∃ f ∈ c.promotes.outputs, f v.name = true) ∨
    (v.output = false ∧ ∃ f ∈ c.promotes.inputs, f v.name = true)

/-- `name` is what the user, knowing OpenMDAO, expects the variable to be called in the group. -/
def Expected (c : SubCall) (v : SubVar) (name : String) : Prop :=
  (Asked c v → name = v.name) ∧ (¬ Asked c v → name = c.name ++ "." ++ v.name)

/-- What the variable is called. -/
def SubCall.called (c : SubCall) (v : SubVar) : String := promotedName c.handed.1 c.handed.2 v

/-- **C68** (partial): the variables of a group added as subsystem are called as asked. Missing: components, for which
this is false, see `c68_component`. -/
theorem c68_group_partial {c : SubCall} (hg : c.group = true) (v : SubVar) : Expected c v (c.called v) := by
  have hc : c.called v = promotedName c.name c.promotes v := by
    simp only [SubCall.called, SubCall.handed, hg, if_true]
  have key : (c.promotes.any ++ if v.output then c.promotes.outputs else c.promotes.inputs).any
      (fun f => f v.name) = true ↔ Asked c v := by
    unfold Asked
    rw [List.any_append, Bool.or_eq_true, List.any_eq_true]
    cases hv : v.output <;> simp
  rw [hc]
  unfold promotedName
  exact ⟨fun h => if_pos (key.2 h), fun h => if_neg fun h' => h (key.1 h')⟩

/-- A group of which one output is promoted. -/
example : let c : SubCall := ⟨"g", true, [⟨"y", true⟩, ⟨"z", true⟩], ⟨[], [], [fun s => s == "y"]⟩⟩
    c.called ⟨"y", true⟩ = "y" ∧ c.called ⟨"z", true⟩ = "g.z" := by decide

/-- All variables of a component are promoted, whatever was asked. -/
theorem called_component {c : SubCall} (hg : c.group = false) (v : SubVar) : c.called v = v.name := by
  simp [SubCall.called, SubCall.handed, hg, promotedName]

theorem dotted_ne (s v : String) : v ≠ s ++ "." ++ v := by
  intro h
  have := congrArg String.length h
  simp at this

/-- The code violates **C68** for components, exactly: a variable of a component is called as expected if and only if
the user asked for it to be promoted. -/
theorem c68_component {c : SubCall} (hg : c.group = false) (v : SubVar) :
    Expected c v (c.called v) ↔ Asked c v := by
  rw [called_component hg]
  refine ⟨fun h => ?_, fun h => ⟨fun _ => rfl, fun h' => absurd h h'⟩⟩
  by_contra hn
  exact dotted_ne _ _ (h.2 hn)

/-- In particular without promotions: no variable of the component has the name expected. -/
theorem c68_violated (name v : String) (vars : List SubVar) (o : Bool) :
    ¬ Expected ⟨name, false, vars, ⟨[], [], []⟩⟩ ⟨v, o⟩
      ((⟨name, false, vars, ⟨[], [], []⟩⟩ : SubCall).called ⟨v, o⟩) := by
  rw [c68_component rfl]
  simp [Asked]

/-- A consequence: two components with an output of the same name cannot be added to one group, even if no promotion
was asked for and the expected names differ. -/
theorem c68_conflict {n m : String} (hnm : n ≠ m) (y : String) :
    let a : SubCall := ⟨n, false, [⟨y, true⟩], ⟨[], [], []⟩⟩
    let b : SubCall := ⟨m, false, [⟨y, true⟩], ⟨[], [], []⟩⟩
    checkOutputs [a, b] = .error .runtimeError ∧
    ∀ s t, Expected a ⟨y, true⟩ s → Expected b ⟨y, true⟩ t → s ≠ t := by
  intro a b
  constructor
  · unfold checkOutputs
    rw [if_neg]
    simp [outputNames, a, b, SubCall.handed, promotedName]
  · intro s t hs ht hst
    have h1 := hs.2 (by simp [Asked, a])
    have h2 := ht.2 (by simp [Asked, b])
    rw [h1, h2] at hst
    have := congrArg String.toList hst
    simp only [String.toList_append, a, b] at this
    rw [List.append_cancel_right_eq, List.append_cancel_right_eq] at this
    exact hnm (String.toList_inj.1 this)

/-- **C68**, what holds for components: if everything was promoted on purpose, nothing is different. -/
theorem c68_all_promoted (c : SubCall) (h : ∀ v ∈ c.vars, Asked c v) :
    ∀ v ∈ c.vars, Expected c v (c.called v) := by
  intro v hv
  cases hg : c.group with
  | true => exact c68_group_partial hg v
  | false => exact (c68_component hg v).2 (h v hv)

/-- `promotes=['*']`. -/
example : let c : SubCall := ⟨"c", false, [⟨"x", false⟩, ⟨"y", true⟩], ⟨[fun _ => true], [], []⟩⟩
    ∀ v ∈ c.vars, Asked c v := by
  intro c v _
  exact .inl ⟨_, List.mem_singleton.2 rfl, rfl⟩

end OM
