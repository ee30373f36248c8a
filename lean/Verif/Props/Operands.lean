import Verif.Model.Operands

/-! # What components are told about their operands (C66, C67) -/

namespace OM

/-- An operand with a declared value: an input, an independent variable, an output (`get_shape_val`, C51), or a part of
one. -/
def ReadVar.Declared (x : ReadVar) : Prop := x.val.shape = x.shape

/-- An operand whose value is not known: the result of a function, whose value is `np.array([1])`. -/
def ReadVar.Computed (x : ReadVar) : Prop := x.val = ⟨[1], [1], rfl⟩

/-- The shapes are such that the function accepts them. -/
def Reading.Fits : Reading → Prop
  | .own _ => True
  | .common s xs => ∀ x ∈ xs, x.shape = s.shape
  | .outerVectors x y => x.dims.length = 1 ∧ y.dims.length = 1
  | .innerVectors x y => x.dims.length = 1 ∧ x.shape = y.shape
  | .matVector _ y => y.dims.length = 1
  | .expandScalar x => x.shape = [1]
  | .ifElse _ t f => t.shape = f.shape

/-- The operation expands a scalar. -/
def Reading.Expands : Reading → Prop
  | .expandScalar _ => True
  | _ => False

theorem npFull_eq {v : NdArr} (h : v.shape = [1]) : (npFull [1] (v.data.headD 0)).data = v.data := by
  have hs := v.size
  rw [h] at hs
  have : v.data.length = 1 := by simpa [prodShape] using hs
  obtain ⟨a, ha⟩ := List.length_eq_one_iff.1 this
  simp [npFull, ha, prodShape]

/-- A declaration with the shape of a declared value keeps the value. -/
theorem initial_some {n : String} {s : List Nat} {v w : NdArr} (hv : v.shape = s)
    (h : InputDecl.initial ⟨n, some s, some v⟩ = .ok w) : w.data = v.data ∧ w.shape = s := by
  subst hv
  unfold InputDecl.initial at h
  simp only at h
  split at h
  · rename_i h1
    cases h
    rw [h1]
    exact ⟨npFull_eq h1, rfl⟩
  · rw [if_pos trivial] at h
    cases h
    exact ⟨rfl, rfl⟩

theorem mapM_forall₂ {α β : Type} {f : α → Except PyErr β} {l : List α} {r : List β} (h : l.mapM f = .ok r) :
    List.Forall₂ (fun a b => f a = .ok b) l r := by
  induction l generalizing r with
  | nil =>
    simp only [List.mapM_nil] at h
    cases h
    exact .nil
  | cons a l ih =>
    rw [List.mapM_cons] at h
    cases hf : f a with
    | error e => rw [hf] at h; cases h
    | ok b =>
      cases hl : l.mapM f with
      | error e => rw [hf, hl] at h; cases h
      | ok bs =>
        rw [hf, hl] at h
        cases h
        exact .cons hf (ih hl)

theorem mapM_of_forall₂ {α β : Type} {f : α → Except PyErr β} {l : List α} {r : List β}
    (h : List.Forall₂ (fun a b => f a = .ok b) l r) : l.mapM f = .ok r := by
  induction h with
  | nil => rfl
  | cons h1 _ ih => rw [List.mapM_cons, h1, ih]; rfl

theorem inputs_ok {r : Reading} {l : List (String × NdArr)} (h : r.inputs = .ok l) :
    ∃ ds, r.decls = .ok ds ∧ List.Forall₂ (fun d (p : String × NdArr) => p.1 = d.name ∧ d.initial = .ok p.2) ds l := by
  unfold Reading.inputs at h
  cases hd : r.decls with
  | error e => rw [hd] at h; cases h
  | ok ds =>
    rw [hd] at h
    refine ⟨ds, rfl, (mapM_forall₂ h).imp fun d p hp => ?_⟩
    cases hi : d.initial with
    | error e => rw [hi] at hp; cases hp
    | ok v => rw [hi] at hp; cases hp; exact ⟨rfl, rfl⟩

theorem inputs_of {r : Reading} {ds : List InputDecl} {l : List (String × NdArr)} (hd : r.decls = .ok ds)
    (h : List.Forall₂ (fun d (p : String × NdArr) => p.1 = d.name ∧ d.initial = .ok p.2) ds l) :
    r.inputs = .ok l := by
  unfold Reading.inputs
  rw [hd]
  refine mapM_of_forall₂ (h.imp fun d p hp => ?_)
  rw [hp.2, ← hp.1]
  rfl

/-- What `add_input` is told about each operand. -/
theorem decls_forall {r : Reading} (hf : r.Fits) {ds : List InputDecl} (h : r.decls = .ok ds) :
    List.Forall₂ (fun (x : ReadVar) d => d.name = x.name ∧ (¬ r.Expands → x.Declared →
      ∀ v, d.initial = .ok v → v.data = x.val.data)) r.operands ds := by
  have own : ∀ (x : ReadVar) (s : List Nat), x.Declared → s = x.shape → ∀ v,
      InputDecl.initial ⟨x.name, some s, some x.val⟩ = .ok v → v.data = x.val.data := by
    rintro x s hx rfl v hv
    exact (initial_some hx hv).1
  have one : ∀ (x : ReadVar) (d : Dim), x.dims = [d] → [d.n] = x.shape := by
    intro x d hd
    simp [ReadVar.shape, hd]
  cases r with
  | own xs =>
    cases h
    refine List.forall₂_map_right_iff.2 (List.forall₂_same.2 fun x _ => ⟨rfl, fun _ hx => own x _ hx rfl⟩)
  | common s xs =>
    cases h
    refine List.forall₂_map_right_iff.2 (List.forall₂_same.2 fun x hxs => ⟨rfl, fun _ hx => own x _ hx (hf x hxs).symm⟩)
  | outerVectors x y =>
    obtain ⟨d, hd⟩ := List.length_eq_one_iff.1 hf.1
    obtain ⟨e, he⟩ := List.length_eq_one_iff.1 hf.2
    simp only [Reading.decls, hd, he] at h
    cases h
    exact .cons ⟨rfl, fun _ hx => own x _ hx (one x d hd)⟩ (.cons ⟨rfl, fun _ hx => own y _ hx (one y e he)⟩ .nil)
  | innerVectors x y =>
    obtain ⟨d, hd⟩ := List.length_eq_one_iff.1 hf.1
    simp only [Reading.decls, hd] at h
    split at h
    · cases h
    · cases h
      exact .cons ⟨rfl, fun _ hx => own x _ hx (one x d hd)⟩
        (.cons ⟨rfl, fun _ hx => own y _ hx ((one x d hd).trans hf.2)⟩ .nil)
  | matVector a y =>
    obtain ⟨d, hd⟩ := List.length_eq_one_iff.1 hf
    simp only [Reading.decls, hd] at h
    split at h
    · rename_i v hv
      cases h
      refine .cons ⟨rfl, fun _ hx => own a _ hx rfl⟩ (.cons ⟨rfl, fun _ _ w hw => ?_⟩ .nil)
      unfold npReshape at hv
      split at hv
      · cases hv
        exact (initial_some rfl hw).1
      · cases hv
    · cases h
  | expandScalar x =>
    cases h
    exact .cons ⟨rfl, fun he => absurd trivial he⟩ .nil
  | ifElse c t f =>
    cases h
    have : ∀ (x : ReadVar) v, InputDecl.initial ⟨x.name, none, some x.val⟩ = .ok v → v.data = x.val.data := by
      intro x v hv
      cases hv
      rfl
    exact .cons ⟨rfl, fun _ _ => this c⟩ (.cons ⟨rfl, fun _ _ => this t⟩ (.cons ⟨rfl, fun _ _ => this f⟩ .nil))

theorem forall₂_trans {α β γ : Type} {R : α → β → Prop} {S : β → γ → Prop} {T : α → γ → Prop} {a : List α}
    {b : List β} {c : List γ} (h : List.Forall₂ R a b) (h' : List.Forall₂ S b c)
    (ht : ∀ x y z, R x y → S y z → T x z) : List.Forall₂ T a c := by
  induction h generalizing c with
  | nil => cases h'; exact .nil
  | cons h1 _ ih =>
    cases h' with
    | cons h2 h3 => exact .cons (ht _ _ _ h1 h2) (ih h3)

theorem forall₂_mem_right {α β : Type} {R : α → β → Prop} {a : List α} {b : List β} (h : List.Forall₂ R a b)
    {y : β} (hy : y ∈ b) : ∃ x ∈ a, R x y := by
  induction h with
  | nil => simp at hy
  | cons h1 _ ih =>
    rcases List.mem_cons.1 hy with rfl | hy
    · exact ⟨_, by simp, h1⟩
    · obtain ⟨x, hx, h2⟩ := ih hy
      exact ⟨x, by simp [hx], h2⟩

/-- **C66**, what holds: except when a scalar is expanded, every input has the declared value of the operand. -/
theorem c66_declared_partial {r : Reading} (hf : r.Fits) (he : ¬ r.Expands) {l : List (String × NdArr)}
    (h : r.inputs = .ok l) :
    List.Forall₂ (fun (x : ReadVar) (p : String × NdArr) => p.1 = x.name ∧ (x.Declared → p.2.data = x.val.data))
      r.operands l := by
  obtain ⟨ds, hd, hl⟩ := inputs_ok h
  exact forall₂_trans (decls_forall hf hd) hl fun x d p hx hp =>
    ⟨hp.1.trans hx.1, fun hdecl => hx.2 he hdecl _ hp.2⟩

/-- The value declared for a scalar is lost when it is expanded: the input has the value one. -/
theorem c66_expand (x : ReadVar) : (Reading.expandScalar x).inputs = .ok [(x.name, npFull [1] 1)] := rfl

/-- **C66** is violated: a scalar declared with the value three, then expanded. -/
theorem c66_violated : ∃ (x : ReadVar) (l : List (String × NdArr)) (v : NdArr), x.Declared ∧
    (Reading.expandScalar x).Fits ∧ (Reading.expandScalar x).inputs = .ok l ∧ (x.name, v) ∈ l ∧
    v.data ≠ x.val.data :=
  ⟨⟨"x", [⟨1, false⟩], npFull [1] 3⟩, _, npFull [1] 1, rfl, rfl, rfl, by simp,
    by simp [npFull, prodShape]⟩

/-- Any two operations reading a declared variable give its input the same value, unless one of them expands a
scalar. -/
theorem c66_consistent {r r' : Reading} (hf : r.Fits) (hf' : r'.Fits) (he : ¬ r.Expands) (he' : ¬ r'.Expands)
    {l l' : List (String × NdArr)} (h : r.inputs = .ok l) (h' : r'.inputs = .ok l') {x : ReadVar} (hx : x.Declared)
    (hn : ∀ y ∈ r.operands, y.name = x.name → y = x) (hn' : ∀ y ∈ r'.operands, y.name = x.name → y = x)
    {v v' : NdArr} (hv : (x.name, v) ∈ l) (hv' : (x.name, v') ∈ l') : v.data = v'.data := by
  have key : ∀ {r : Reading} {l : List (String × NdArr)}, r.Fits → ¬ r.Expands → r.inputs = .ok l →
      (∀ y ∈ r.operands, y.name = x.name → y = x) → ∀ {v}, (x.name, v) ∈ l → v.data = x.val.data := by
    intro r l hf he h hn v hv
    obtain ⟨y, hy, hp⟩ := forall₂_mem_right (c66_declared_partial hf he h) hv
    obtain rfl := hn y hy hp.1.symm
    exact hp.2 hx
  exact (key hf he h hn hv).trans (key hf' he' h' hn' hv').symm

/-- A vector of two entries and a scalar: their sum with a number, and the product of the scalar with itself. -/
example : ∃ x : ReadVar, x.Declared ∧ (Reading.common x [x]).Fits ∧ ¬ (Reading.common x [x]).Expands ∧
    (Reading.common x [x]).inputs = .ok [("x", ⟨[2], [3, 4], rfl⟩)] := by
  refine ⟨⟨"x", [⟨2, false⟩], ⟨[2], [3, 4], rfl⟩⟩, rfl, by simp [Reading.Fits], id, ?_⟩
  exact inputs_of rfl (.cons ⟨rfl, by simp [InputDecl.initial, ReadVar.shape]⟩ .nil)

/-! ## C67 -/

/-- The value of the operand is declared, or it is the value one of an expression. -/
def ReadVar.Usual (x : ReadVar) : Prop := x.Declared ∨ x.Computed

theorem initial_usual {x : ReadVar} (hx : x.Usual) (n : String) :
    ∃ v, InputDecl.initial ⟨n, some x.shape, some x.val⟩ = .ok v ∧ v.shape = x.shape := by
  by_cases h1 : x.val.shape = [1]
  · exact ⟨_, if_pos h1, rfl⟩
  · rcases hx with hx | hx
    · exact ⟨_, (if_neg h1).trans (if_pos hx), hx⟩
    · rw [ReadVar.Computed] at hx
      rw [hx] at h1
      exact absurd rfl h1

/-- Where operands are accepted only if they were made in a certain way: the first vector of `inner` and `dot`, the
vector of `matmat`, the operands of `if_else`. -/
def Reading.Restricts : Reading → Prop
  | .innerVectors x _ => ∃ d ∈ x.dims, d.np = true
  | .matVector _ y => y.Computed ∧ y.shape ≠ [1]
  | .ifElse c t f => ∃ x ∈ [c, t, f], x.Computed ∧ x.shape ≠ [1]
  | _ => False

theorem inputs_build {r : Reading} {ds : List InputDecl} (hd : r.decls = .ok ds)
    (h : List.Forall₂ (fun (x : ReadVar) (d : InputDecl) => d.name = x.name ∧ ∃ v, d.initial = .ok v ∧
      prodShape v.shape = prodShape x.shape) r.operands ds) :
    ∃ l, r.inputs = .ok l ∧ List.Forall₂ (fun (x : ReadVar) (p : String × NdArr) => p.1 = x.name ∧
      prodShape p.2.shape = prodShape x.shape) r.operands l := by
  have key : ∀ {xs : List ReadVar} {ds : List InputDecl},
      List.Forall₂ (fun (x : ReadVar) (d : InputDecl) => d.name = x.name ∧ ∃ v, d.initial = .ok v ∧
        prodShape v.shape = prodShape x.shape) xs ds →
      ∃ l : List (String × NdArr), List.Forall₂ (fun d (p : String × NdArr) => p.1 = d.name ∧
        d.initial = .ok p.2) ds l ∧ List.Forall₂ (fun (x : ReadVar) (p : String × NdArr) => p.1 = x.name ∧
        prodShape p.2.shape = prodShape x.shape) xs l := by
    intro xs ds h
    induction h with
    | nil => exact ⟨[], .nil, .nil⟩
    | cons h1 _ ih =>
      obtain ⟨hn, v, hv, hs⟩ := h1
      obtain ⟨l, h2, h3⟩ := ih
      exact ⟨(_, v) :: l, .cons ⟨rfl, hv⟩ h2, .cons ⟨hn, hs⟩ h3⟩
  obtain ⟨l, h1, h2⟩ := key h
  exact ⟨l, inputs_of hd h1, h2⟩

/-- **C67**, what holds: in all other cases the component accepts its operands, however they were made, and its inputs
have the sizes of the operands. -/
theorem c67_accepts_partial {r : Reading} (hu : ∀ x ∈ r.operands, x.Usual) (hf : r.Fits) (hr : ¬ r.Restricts) :
    ∃ l, r.inputs = .ok l ∧ List.Forall₂ (fun (x : ReadVar) (p : String × NdArr) => p.1 = x.name ∧
      prodShape p.2.shape = prodShape x.shape) r.operands l := by
  have own : ∀ (x : ReadVar) (s : List Nat), x.Usual → s = x.shape → ∃ v,
      InputDecl.initial ⟨x.name, some s, some x.val⟩ = .ok v ∧ prodShape v.shape = prodShape x.shape := by
    rintro x s hx rfl
    obtain ⟨v, h1, h2⟩ := initial_usual hx x.name
    exact ⟨v, h1, by rw [h2]⟩
  have one : ∀ (x : ReadVar) (d : Dim), x.dims = [d] → [d.n] = x.shape := by
    intro x d hd
    simp [ReadVar.shape, hd]
  cases r with
  | own xs =>
    exact inputs_build rfl (List.forall₂_map_right_iff.2 (List.forall₂_same.2 fun x hx => ⟨rfl, own x _ (hu x hx) rfl⟩))
  | common s xs =>
    exact inputs_build rfl (List.forall₂_map_right_iff.2 (List.forall₂_same.2 fun x hx =>
      ⟨rfl, own x _ (hu x hx) (hf x hx).symm⟩))
  | outerVectors x y =>
    obtain ⟨d, hd⟩ := List.length_eq_one_iff.1 hf.1
    obtain ⟨e, he⟩ := List.length_eq_one_iff.1 hf.2
    refine inputs_build (ds := [⟨x.name, some [d.n], some x.val⟩, ⟨y.name, some [e.n], some y.val⟩])
      (by simp [Reading.decls, hd, he]) ?_
    exact .cons ⟨rfl, own x _ (hu x (by simp [Reading.operands])) (one x d hd)⟩
      (.cons ⟨rfl, own y _ (hu y (by simp [Reading.operands])) (one y e he)⟩ .nil)
  | innerVectors x y =>
    obtain ⟨d, hd⟩ := List.length_eq_one_iff.1 hf.1
    have hnp : d.np = false := by
      by_contra h
      exact hr ⟨d, by simp [hd], by simpa using h⟩
    refine inputs_build (ds := [⟨x.name, some [d.n], some x.val⟩, ⟨y.name, some [d.n], some y.val⟩])
      (by simp [Reading.decls, hd, hnp]) ?_
    exact .cons ⟨rfl, own x _ (hu x (by simp [Reading.operands])) (one x d hd)⟩
      (.cons ⟨rfl, own y _ (hu y (by simp [Reading.operands])) ((one x d hd).trans hf.2)⟩ .nil)
  | matVector a y =>
    obtain ⟨d, hd⟩ := List.length_eq_one_iff.1 hf
    have hys := one y d hd
    have hyv : y.val.shape = y.shape := by
      rcases hu y (by simp [Reading.operands]) with h | h
      · exact h
      · have : y.shape = [1] := by
          by_contra hn
          exact hr ⟨h, hn⟩
        rw [this, h]
    have hlen : y.val.data.length = prodShape [d.n, 1] := by
      rw [y.val.size, hyv, ← hys]
      simp [prodShape]
    refine inputs_build (ds := [⟨a.name, some a.shape, some a.val⟩,
      ⟨y.name, some [d.n, 1], some ⟨[d.n, 1], y.val.data, hlen⟩⟩])
      (by simp [Reading.decls, hd, npReshape, hlen]) ?_
    refine .cons ⟨rfl, own a _ (hu a (by simp [Reading.operands])) rfl⟩ (.cons ⟨rfl, ?_⟩ .nil)
    refine ⟨⟨[d.n, 1], y.val.data, hlen⟩, ?_, ?_⟩
    · simp [InputDecl.initial]
    · rw [← hys]
      simp [prodShape]
  | expandScalar x =>
    refine inputs_build rfl (.cons ⟨rfl, npFull [1] 1, rfl, ?_⟩ .nil)
    rw [show x.shape = [1] from hf]
    rfl
  | ifElse c t f =>
    refine inputs_build rfl (List.forall₂_map_right_iff.2 (List.forall₂_same.2 fun x hx => ⟨rfl, x.val, rfl, ?_⟩))
    rcases hu x hx with h | h
    · rw [h]
    · have : x.shape = [1] := by
        by_contra hn
        exact hr ⟨x, hx, h, hn⟩
      rw [this, h]

/-- The dimensions left by a reduction along axes are NumPy integers. -/
theorem deleteDims_np {axes : List Nat} {dims : List Dim} {d : Dim} (h : d ∈ deleteDims axes dims) :
    d.np = true := by
  obtain ⟨e, _, rfl⟩ := List.mem_map.1 h
  rfl

/-- **C67** is violated by `inner` and `dot`: a first vector that is the result of a sum, average, maximum, minimum or
p-norm along axes is refused, whatever its length. -/
theorem c67_inner_reduced {x y : ReadVar} {axes : List Nat} {dims : List Dim} (hx : x.dims = deleteDims axes dims)
    (hf : (Reading.innerVectors x y).Fits) : (Reading.innerVectors x y).inputs = .error .typeError := by
  obtain ⟨d, hd⟩ := List.length_eq_one_iff.1 hf.1
  have : d.np = true := deleteDims_np (axes := axes) (dims := dims) (by rw [← hx, hd]; simp)
  unfold Reading.inputs
  simp only [Reading.decls, hd, this]
  rfl

/-- **C67** is violated by `matmat`: a computed vector with more than one entry is refused. -/
theorem c67_matmat_computed {a y : ReadVar} (hy : y.Computed) (hf : (Reading.matVector a y).Fits)
    (hs : y.shape ≠ [1]) : (Reading.matVector a y).inputs = .error .valueError := by
  obtain ⟨d, hd⟩ := List.length_eq_one_iff.1 hf
  have hn : ¬ y.val.data.length = prodShape [d.n, 1] := by
    rw [show y.val = npOne from hy]
    intro h
    refine hs ?_
    have : d.n = 1 := by simpa [npOne, prodShape] using h.symm
    simp [ReadVar.shape, hd, this]
  unfold Reading.inputs
  simp only [Reading.decls, hd, npReshape, dif_neg hn]
  rfl

/-- **C67** is violated by `if_else`: for a computed operand the component has an input with one entry, the number one,
whatever the size of the operand. -/
theorem c67_ifElse_computed {c t f : ReadVar} (ht : t.Computed) :
    ∃ vc vt vf, (Reading.ifElse c t f).inputs = .ok [(c.name, vc), (t.name, vt), (f.name, vf)] ∧
      vt.shape = [1] ∧ vt.data = [1] :=
  ⟨c.val, npOne, f.val, by rw [← show t.val = npOne from ht]; rfl, rfl, rfl⟩

/-- **C67** is violated: `inner(sum(a, axes=(0,)), y)`, `matmat(a, sin(y))` and `if_else(c, sin(y), y)` with vectors of
three entries fail, or get one entry; with declared vectors of the same shape they are accepted. -/
theorem c67_violated :
    let a : ReadVar := ⟨"a", [⟨2, false⟩, ⟨3, false⟩], npFull [2, 3] 1⟩
    let y : ReadVar := ⟨"y", [⟨3, false⟩], npFull [3] 1⟩
    let s : ReadVar := ⟨"s", deleteDims [0] a.dims, npOne⟩
    let z : ReadVar := ⟨"z", y.dims, npOne⟩
    s.shape = y.shape ∧
    (Reading.innerVectors s y).inputs = .error .typeError ∧ (∃ l, (Reading.innerVectors y s).inputs = .ok l) ∧
    (Reading.matVector a z).inputs = .error .valueError ∧ (∃ l, (Reading.matVector a y).inputs = .ok l) ∧
    (∃ l v, (Reading.ifElse y z y).inputs = .ok l ∧ ("z", v) ∈ l ∧ prodShape v.shape ≠ prodShape z.shape) := by
  intro a y s z
  have hs : s.shape = y.shape := rfl
  have hus : s.Usual := .inr rfl
  have huy : y.Usual := .inl rfl
  have hua : a.Usual := .inl rfl
  refine ⟨hs, c67_inner_reduced (axes := [0]) (dims := a.dims) rfl ⟨rfl, rfl⟩, ?_,
    c67_matmat_computed rfl rfl (by decide), ?_, ?_⟩
  · obtain ⟨l, h, _⟩ := c67_accepts_partial (r := .innerVectors y s)
      (by simpa [Reading.operands] using ⟨huy, hus⟩) ⟨rfl, rfl⟩ (by rintro ⟨d, hd, hnp⟩; simp [y] at hd; simp [hd] at hnp)
    exact ⟨l, h⟩
  · obtain ⟨l, h, _⟩ := c67_accepts_partial (r := .matVector a y)
      (by simpa [Reading.operands] using ⟨hua, huy⟩) rfl (by
        rintro ⟨h, _⟩
        have := congrArg NdArr.shape (show y.val = npOne from h)
        simp [y, npFull, npOne] at this)
    exact ⟨l, h⟩
  · obtain ⟨vc, vt, vf, h, hv, -⟩ := c67_ifElse_computed (c := y) (t := z) (f := y) rfl
    exact ⟨_, vt, h, by simp [z], by rw [hv]; decide⟩

end OM
