import Verif.Model.Replace
import Verif.Lemmas.Setup

/-! # `replace_output_leaf_nodes` -/

namespace OM
open Spec

theorem removeDepNode_eq_erase (l : List Ref) (c : Ref) : removeDepNode l c = l.erase c := by
  unfold removeDepNode
  cases h : depIndex l c with
  | none =>
    unfold depIndex at h
    rw [List.findIdx?_eq_none_iff] at h
    rw [List.erase_of_not_mem]
    intro hc
    simpa using h c hc
  | some i =>
    unfold depIndex at h
    rw [List.findIdx?_eq_some_iff_getElem] at h
    obtain ⟨hi, h1, _⟩ := h
    have h1 : l[i] = c := by simpa using h1
    show removeByIndex l i = _
    unfold removeByIndex
    rw [List.getElem?_eq_getElem hi, h1]

section
variable (o : SetOrder Ref) (root leaf : Ref)

theorem replaceDep_deps_self (node : Ref) (h : DepHeap) :
    (replaceDep o root leaf node h).deps node = o.list ((h.deps node).erase root ++ [leaf]) := by
  simp [replaceDep, DepHeap.deps, removeDepNode_eq_erase]

theorem replaceDep_deps_ne {node u : Ref} (hu : u ≠ node) (h : DepHeap) :
    (replaceDep o root leaf node h).deps u = h.deps u := by
  simp [replaceDep, DepHeap.deps, Function.update_of_ne hu]

/-- Nothing that `u` depends on depends on `root`. -/
def CleanFrom (g : Graph) (u : Ref) : Prop := ∀ x, Reach g u x → root ∉ g x

theorem cleanFrom_of_children {g : Graph} {u : Ref}
    (h : ∀ d ∈ g u, d ≠ root ∧ CleanFrom root g d) : CleanFrom root g u := by
  intro x hx hr
  rcases Relation.ReflTransGen.cases_head hx with rfl | ⟨d, hd, hdx⟩
  · exact (h root hr).1 rfl
  · exact (h d hd).2 x hdx hr

/-- Outcome of the loop: nothing was replaced and everything visited is clean, or something was
replaced and then everything below `root` is clean. -/
theorem replaceScan_clean (n : Nat) : ∀ (node : Ref) (obj i : Nat) (h h' : DepHeap),
    replaceScan o root leaf n node obj i h = some h' →
    (h' = h ∧ ∀ d ∈ (h.lists node obj).drop i, d ≠ root ∧ CleanFrom root h.deps d) ∨
      CleanFrom root h'.deps root := by
  induction n with
  | zero => intro node obj i h h' hs; simp [replaceScan] at hs
  | succ n ih =>
    intro node obj i h h' hs
    unfold replaceScan at hs
    cases hi : (h.lists node obj)[i]? with
    | none =>
      simp only [hi, Option.some.injEq] at hs
      left
      refine ⟨hs.symm, ?_⟩
      rw [List.drop_eq_nil_of_le (List.getElem?_eq_none_iff.1 hi)]
      simp
    | some dep =>
      simp only [hi] at hs
      obtain ⟨hlt, hget⟩ := List.getElem?_eq_some_iff.1 hi
      by_cases hd : dep = root
      · rw [if_pos hd] at hs
        set h1 := replaceDep o root leaf node h
        cases h2e : replaceScan o root leaf n dep (h1.ver dep) 0 h1 with
        | none => simp [h2e] at hs
        | some h2 =>
          simp only [h2e] at hs
          have hclean : CleanFrom root h2.deps root := by
            rcases ih _ _ _ _ _ h2e with ⟨e, hc⟩ | hc
            · rw [e]
              apply cleanFrom_of_children
              rw [List.drop_zero, hd] at hc
              exact hc
            · exact hc
          rcases ih _ _ _ _ _ hs with ⟨e, _⟩ | hc
          · exact Or.inr (e ▸ hclean)
          · exact Or.inr hc
      · rw [if_neg hd] at hs
        cases h2e : replaceScan o root leaf n dep (h.ver dep) 0 h with
        | none => simp [h2e] at hs
        | some h2 =>
          simp only [h2e] at hs
          rcases ih _ _ _ _ _ h2e with ⟨e, hc⟩ | hc
          · subst e
            rcases ih _ _ _ _ _ hs with ⟨e, hc'⟩ | hc'
            · left
              refine ⟨e, ?_⟩
              rw [List.drop_eq_getElem_cons hlt, hget]
              intro d hd'
              rcases List.mem_cons.1 hd' with rfl | hd'
              · exact ⟨hd, cleanFrom_of_children root hc⟩
              · exact hc' d hd'
            · exact Or.inr hc'
          · rcases ih _ _ _ _ _ hs with ⟨e, _⟩ | hc'
            · exact Or.inr (e ▸ hc)
            · exact Or.inr hc'

/-- What is true of the list objects at any time. -/
structure HeapOk (univ : List Ref) (h : DepHeap) : Prop where
  nodup : ∀ u, (h.deps u).Nodup
  stale : ∀ u v, v < h.ver u → root ∉ h.lists u v
  sub : ∀ u v, v ≤ h.ver u → ∀ x ∈ h.lists u v, x ≠ root → x ∈ h.deps u
  univ_mem : ∀ u, root ∈ h.deps u → u ∈ univ
  leaf_nil : h.deps leaf = []

theorem heapOk_ofGraph {g : Graph} (univ : List Ref) (hn : ∀ u, (g u).Nodup)
    (hu : ∀ u, root ∈ g u → u ∈ univ) (hl : g leaf = []) :
    HeapOk root leaf univ (DepHeap.ofGraph g) :=
  ⟨hn, fun _ _ h => absurd h (Nat.not_lt_zero _), fun _ _ _ x hx _ => hx, hu, hl⟩

/-- Each list is as before or had `root` replaced by `leaf`. -/
def Replaced (g g' : Graph) : Prop :=
  ∀ u, g' u = g u ∨ (root ∈ g u ∧ g' u = o.list ((g u).erase root ++ [leaf]))

def edgesTo (univ : List Ref) (g : Graph) : Nat := univ.countP fun u => decide (root ∈ g u)

theorem mem_replaced {l : List Ref} (hl : l.Nodup) (x : Ref) :
    x ∈ o.list (l.erase root ++ [leaf]) ↔ (x ∈ l ∧ x ≠ root) ∨ x = leaf := by
  rw [o.mem_iff, List.mem_append, List.mem_singleton, hl.mem_erase_iff]
  tauto

theorem Replaced.trans {g g' g'' : Graph} (hne : leaf ≠ root) (hn : ∀ u, (g u).Nodup)
    (h1 : Replaced o root leaf g g') (h2 : Replaced o root leaf g' g'') :
    Replaced o root leaf g g'' := by
  intro u
  rcases h1 u with e1 | ⟨m1, e1⟩
  · rcases h2 u with e2 | ⟨m2, e2⟩
    · exact Or.inl (e2.trans e1)
    · rw [e1] at m2 e2
      exact Or.inr ⟨m2, e2⟩
  · rcases h2 u with e2 | ⟨m2, e2⟩
    · exact Or.inr ⟨m1, e2.trans e1⟩
    · rw [e1, mem_replaced o root leaf (hn u)] at m2
      rcases m2 with ⟨_, h⟩ | h
      · exact absurd rfl h
      · exact absurd h.symm hne

theorem replaceDep_ok {univ : List Ref} {h : DepHeap} (hne : leaf ≠ root)
    (ok : HeapOk root leaf univ h) {node : Ref} (hr : root ∈ h.deps node) :
    HeapOk root leaf univ (replaceDep o root leaf node h) ∧
      Replaced o root leaf h.deps (replaceDep o root leaf node h).deps ∧
      edgesTo root univ (replaceDep o root leaf node h).deps < edgesTo root univ h.deps ∧
      (∀ u v, v ≤ h.ver u →
        ((replaceDep o root leaf node h).lists u v).length = (h.lists u v).length) ∧
      (∀ u, h.ver u ≤ (replaceDep o root leaf node h).ver u) := by
  have hself := replaceDep_deps_self o root leaf node h
  have hother : ∀ u, u ≠ node → (replaceDep o root leaf node h).deps u = h.deps u := fun u hu =>
    replaceDep_deps_ne o root leaf hu h
  have hnr : root ∉ (replaceDep o root leaf node h).deps node := by
    rw [hself, mem_replaced o root leaf (ok.nodup node)]
    rintro (⟨_, h⟩ | h)
    · exact h rfl
    · exact hne h.symm
  have hnl : leaf ≠ node := by
    intro e
    have := ok.leaf_nil
    rw [e] at this
    rw [this] at hr
    simp at hr
  have hlists : ∀ u v, v ≤ h.ver u → (replaceDep o root leaf node h).lists u v =
      if u = node ∧ v = h.ver node then (h.deps node).erase root ++ [leaf] else h.lists u v := by
    intro u v hv
    unfold replaceDep
    simp only [removeDepNode_eq_erase]
    by_cases hu : u = node
    · subst hu
      rw [Function.update_self, Function.update_of_ne (by omega)]
      by_cases hv' : v = h.ver u
      · subst hv'; simp
      · rw [Function.update_of_ne hv', if_neg (by simp [hv'])]
    · rw [Function.update_of_ne hu, if_neg (by simp [hu])]
  refine ⟨⟨?_, ?_, ?_, ?_, ?_⟩, ?_, ?_, ?_, ?_⟩
  · intro u
    by_cases hu : u = node
    · rw [hu, hself]; exact o.nodup _
    · rw [hother u hu]; exact ok.nodup u
  · intro u v hv
    have hver : (replaceDep o root leaf node h).ver u =
        if u = node then h.ver node + 1 else h.ver u := by
      unfold replaceDep
      by_cases hu : u = node
      · subst hu; simp
      · simp [Function.update_of_ne hu, hu]
    rw [hver] at hv
    have hvle : v ≤ h.ver u := by
      split at hv
      · rename_i e; rw [e]; omega
      · omega
    rw [hlists u v hvle]
    split
    · rw [List.mem_append, (ok.nodup node).mem_erase_iff, List.mem_singleton]
      rintro (⟨h, _⟩ | h)
      · exact h rfl
      · exact hne h.symm
    · rename_i hc
      apply ok.stale u v
      split at hv
      · rename_i e
        have : v ≠ h.ver node := fun e' => hc ⟨e, e'⟩
        rw [e]; omega
      · exact hv
  · intro u v hv x hx hxr
    have hver : (replaceDep o root leaf node h).ver u =
        if u = node then h.ver node + 1 else h.ver u := by
      unfold replaceDep
      by_cases hu : u = node
      · subst hu; simp
      · simp [Function.update_of_ne hu, hu]
    by_cases hcur : v = (replaceDep o root leaf node h).ver u
    · subst hcur; exact hx
    · have hvle : v ≤ h.ver u := by
        rw [hver] at hv hcur
        split at hv
        · rename_i e; rw [if_pos e] at hcur; rw [e]; omega
        · exact hv
      rw [hlists u v hvle] at hx
      by_cases hu : u = node
      · subst hu
        rw [hself, mem_replaced o root leaf (ok.nodup u)]
        split at hx
        · rw [List.mem_append, (ok.nodup u).mem_erase_iff, List.mem_singleton] at hx
          rcases hx with ⟨h1, h2⟩ | h1
          · exact Or.inl ⟨h2, h1⟩
          · exact Or.inr h1
        · exact Or.inl ⟨ok.sub u v hvle x hx hxr, hxr⟩
      · rw [if_neg (by simp [hu])] at hx
        rw [hother u hu]
        exact ok.sub u v hvle x hx hxr
  · intro u hu
    by_cases hun : u = node
    · subst hun; exact absurd hu hnr
    · rw [hother u hun] at hu; exact ok.univ_mem u hu
  · rw [hother leaf hnl]; exact ok.leaf_nil
  · intro u
    by_cases hu : u = node
    · subst hu; exact Or.inr ⟨hr, hself⟩
    · exact Or.inl (hother u hu)
  · have hmem := ok.univ_mem node hr
    unfold edgesTo
    have hle : ∀ u, (decide (root ∈ (replaceDep o root leaf node h).deps u)) = true →
        (decide (root ∈ h.deps u)) = true := by
      intro u hu
      by_cases hun : u = node
      · subst hun; simp at hu; exact absurd hu hnr
      · rw [hother u hun] at hu; exact hu
    clear hlists ok
    induction univ with
    | nil => simp at hmem
    | cons a t ih =>
      simp only [List.countP_cons]
      rcases List.mem_cons.1 hmem with rfl | hmem
      · have h1 : List.countP (fun u => decide (root ∈ (replaceDep o root leaf node h).deps u)) t ≤
            List.countP (fun u => decide (root ∈ h.deps u)) t :=
          List.countP_mono_left fun x _ => hle x
        simp [hnr, hr]
        omega
      · have := ih hmem
        have h2 := hle a
        split <;> split <;> simp_all <;> omega
  · intro u v hv
    rw [hlists u v hv]
    split
    · rename_i e
      obtain ⟨rfl, rfl⟩ := e
      rw [List.length_append, List.length_erase_of_mem hr]
      show (h.deps u).length - 1 + 1 = (h.deps u).length
      have := List.length_pos_of_mem hr
      omega
    · rfl
  · intro u
    unfold replaceDep
    by_cases hu : u = node
    · subst hu; simp
    · simp [Function.update_of_ne hu]

/-- What a (completed) scan changes. -/
theorem replaceScan_frame (hne : leaf ≠ root) (univ : List Ref) (n : Nat) :
    ∀ (node : Ref) (obj i : Nat) (h h' : DepHeap), HeapOk root leaf univ h → obj ≤ h.ver node →
    replaceScan o root leaf n node obj i h = some h' →
    HeapOk root leaf univ h' ∧ Replaced o root leaf h.deps h'.deps ∧
      (h' = h ∨ edgesTo root univ h'.deps < edgesTo root univ h.deps) ∧
      (∀ u v, v ≤ h.ver u → (h'.lists u v).length = (h.lists u v).length) ∧
      (∀ u, h.ver u ≤ h'.ver u) := by
  induction n with
  | zero => intro node obj i h h' _ _ hs; simp [replaceScan] at hs
  | succ n ih =>
    intro node obj i h h' ok hobj hs
    unfold replaceScan at hs
    cases hi : (h.lists node obj)[i]? with
    | none =>
      simp only [hi, Option.some.injEq] at hs
      subst hs
      exact ⟨ok, fun u => Or.inl rfl, Or.inl rfl, fun _ _ _ => rfl, fun _ => le_rfl⟩
    | some dep =>
      simp only [hi] at hs
      have hmem : dep ∈ h.lists node obj := List.mem_of_getElem? hi
      by_cases hd : dep = root
      · subst hd
        rw [if_pos rfl] at hs
        have hr : dep ∈ h.deps node := by
          rcases Nat.lt_or_eq_of_le hobj with hlt | he
          · exact absurd hmem (ok.stale node obj hlt)
          · subst he; exact hmem
        obtain ⟨ok1, r1, e1, l1, v1⟩ := replaceDep_ok o dep leaf hne ok hr
        set h1 := replaceDep o dep leaf node h
        cases h2e : replaceScan o dep leaf n dep (h1.ver dep) 0 h1 with
        | none => simp [h2e] at hs
        | some h2 =>
          simp only [h2e] at hs
          obtain ⟨ok2, r2, e2, l2, v2⟩ := ih _ _ _ _ _ ok1 le_rfl h2e
          have hobj2 : obj ≤ h2.ver node := hobj.trans ((v1 node).trans (v2 node))
          obtain ⟨ok3, r3, e3, l3, v3⟩ := ih _ _ _ _ _ ok2 hobj2 hs
          refine ⟨ok3, ?_, ?_, ?_, ?_⟩
          · exact Replaced.trans o dep leaf hne ok.nodup
              (Replaced.trans o dep leaf hne ok.nodup r1 r2) r3
          · right
            have a2 : edgesTo dep univ h2.deps ≤ edgesTo dep univ h1.deps := by
              rcases e2 with e2 | e2
              · rw [e2]
              · exact e2.le
            have a3 : edgesTo dep univ h'.deps ≤ edgesTo dep univ h2.deps := by
              rcases e3 with e3 | e3
              · rw [e3]
              · exact e3.le
            omega
          · intro u v hv
            have hv1 := hv.trans (v1 u)
            rw [l3 u v (hv1.trans (v2 u)), l2 u v hv1, l1 u v hv]
          · exact fun u => (v1 u).trans ((v2 u).trans (v3 u))
      · rw [if_neg hd] at hs
        cases h2e : replaceScan o root leaf n dep (h.ver dep) 0 h with
        | none => simp [h2e] at hs
        | some h2 =>
          simp only [h2e] at hs
          obtain ⟨ok2, r2, e2, l2, v2⟩ := ih _ _ _ _ _ ok le_rfl h2e
          obtain ⟨ok3, r3, e3, l3, v3⟩ := ih _ _ _ _ _ ok2 (hobj.trans (v2 node)) hs
          refine ⟨ok3, Replaced.trans o root leaf hne ok.nodup r2 r3, ?_, ?_, ?_⟩
          · rcases e2 with e2 | e2
            · subst e2; exact e3
            · right
              rcases e3 with e3 | e3
              · rw [e3]; exact e2
              · omega
          · intro u v hv
            rw [l3 u v (hv.trans (v2 u)), l2 u v hv]
          · exact fun u => (v2 u).trans (v3 u)

/-! ## Termination -/

theorem replaceScan_mono (n : Nat) : ∀ (m : Nat) (node : Ref) (obj i : Nat) (h h' : DepHeap), n ≤ m →
    replaceScan o root leaf n node obj i h = some h' →
    replaceScan o root leaf m node obj i h = some h' := by
  induction n with
  | zero => intro m node obj i h h' _ hs; simp [replaceScan] at hs
  | succ n ih =>
    intro m node obj i h h' hm hs
    obtain ⟨m, rfl⟩ : ∃ m', m = m' + 1 := ⟨m - 1, by omega⟩
    unfold replaceScan at hs ⊢
    cases hi : (h.lists node obj)[i]? with
    | none => simpa [hi] using hs
    | some dep =>
      simp only [hi] at hs ⊢
      set h1 := if dep = root then replaceDep o root leaf node h else h
      cases h2e : replaceScan o root leaf n dep (h1.ver dep) 0 h1 with
      | none => simp [h2e] at hs
      | some h2 =>
        simp only [h2e] at hs
        rw [ih m _ _ _ _ _ (by omega) h2e]
        exact ih m _ _ _ _ _ (by omega) hs

/-- No infinite chain of dependencies from `u` other than through `root`. -/
abbrev AccNo (g : Graph) (u : Ref) : Prop := Acc (fun v u => v ∈ g u ∧ v ≠ root) u

theorem accNo_replaced {g g' : Graph} (hne : leaf ≠ root) (hn : ∀ u, (g u).Nodup)
    (hl : g' leaf = [])
    (hr : Replaced o root leaf g g') {u : Ref} (h : AccNo root g u) : AccNo root g' u := by
  induction h with
  | intro u _ ih =>
    constructor
    rintro v ⟨hv, hvr⟩
    by_cases hvl : v = leaf
    · subst hvl
      constructor
      rintro w ⟨hw, _⟩
      rw [hl] at hw
      simp at hw
    · apply ih v
      refine ⟨?_, hvr⟩
      rcases hr u with e | ⟨_, e⟩
      · rwa [e] at hv
      · rw [e, mem_replaced o root leaf (hn u)] at hv
        rcases hv with ⟨h1, _⟩ | h1
        · exact h1
        · exact absurd h1 hvl

theorem replaceScan_total (hne : leaf ≠ root) (univ : List Ref) (c : Nat) :
    ∀ (h : DepHeap), HeapOk root leaf univ h → edgesTo root univ h.deps ≤ c →
      AccNo root h.deps root → ∀ node, AccNo root h.deps node → ∀ obj i, obj ≤ h.ver node →
      ∃ n h', replaceScan o root leaf n node obj i h = some h' := by
  induction c using Nat.strong_induction_on with
  | _ c ihc =>
    intro h ok hc hroot node hnode
    induction hnode with
    | intro node hacc ihn =>
      intro obj i hobj
      -- induction on the number of remaining positions
      generalize hk : (h.lists node obj).length - i = k
      induction k using Nat.strong_induction_on generalizing i with
      | _ k ihk =>
        cases hi : (h.lists node obj)[i]? with
        | none => exact ⟨1, h, by simp [replaceScan, hi]⟩
        | some dep =>
          have hmem : dep ∈ h.lists node obj := List.mem_of_getElem? hi
          have hlt : i < (h.lists node obj).length := (List.getElem?_eq_some_iff.1 hi).1
          by_cases hd : dep = root
          · subst hd
            have hr : dep ∈ h.deps node := by
              rcases Nat.lt_or_eq_of_le hobj with hlt | he
              · exact absurd hmem (ok.stale node obj hlt)
              · subst he; exact hmem
            obtain ⟨ok1, r1, e1, l1, v1⟩ := replaceDep_ok o dep leaf hne ok hr
            have a1 := accNo_replaced o dep leaf hne ok.nodup ok1.leaf_nil r1 hroot
            obtain ⟨n1, h2, s1⟩ := ihc (edgesTo dep univ (replaceDep o dep leaf node h).deps)
              (by omega) _ ok1 le_rfl a1 dep a1 _ 0 le_rfl
            obtain ⟨ok2, r2, e2, l2, v2⟩ :=
              replaceScan_frame o dep leaf hne univ n1 _ _ _ _ _ ok1 le_rfl s1
            have a2 : edgesTo dep univ h2.deps ≤
                edgesTo dep univ (replaceDep o dep leaf node h).deps := by
              rcases e2 with e2 | e2
              · rw [e2]
              · exact e2.le
            have r12 := Replaced.trans o dep leaf hne ok.nodup r1 r2
            obtain ⟨n2, h3, s2⟩ := ihc (edgesTo dep univ h2.deps) (by omega) h2 ok2 le_rfl
              (accNo_replaced o dep leaf hne ok.nodup ok2.leaf_nil r12 hroot) node
              (accNo_replaced o dep leaf hne ok.nodup ok2.leaf_nil r12 (Acc.intro node hacc))
              obj (i + 1) (hobj.trans ((v1 node).trans (v2 node)))
            refine ⟨max n1 n2 + 1, h3, ?_⟩
            unfold replaceScan
            simp only [hi, if_true]
            rw [replaceScan_mono o dep leaf n1 (max n1 n2) _ _ _ _ _ (by omega) s1]
            exact replaceScan_mono o dep leaf n2 (max n1 n2) _ _ _ _ _ (by omega) s2
          · have hdep : dep ∈ h.deps node := ok.sub node obj hobj dep hmem hd
            obtain ⟨n1, h2, s1⟩ := ihn dep ⟨hdep, hd⟩ (h.ver dep) 0 le_rfl
            obtain ⟨ok2, r2, e2, l2, v2⟩ :=
              replaceScan_frame o root leaf hne univ n1 _ _ _ _ _ ok le_rfl s1
            have hrest : ∃ n2 h3, replaceScan o root leaf n2 node obj (i + 1) h2 = some h3 := by
              rcases e2 with e2 | e2
              · subst e2
                exact ihk _ (by omega) (i + 1) rfl
              · exact ihc (edgesTo root univ h2.deps) (by omega) h2 ok2 le_rfl
                  (accNo_replaced o root leaf hne ok.nodup ok2.leaf_nil r2 hroot) node
                  (accNo_replaced o root leaf hne ok.nodup ok2.leaf_nil r2 (Acc.intro node hacc))
                  obj (i + 1) (hobj.trans (v2 node))
            obtain ⟨n2, h3, s2⟩ := hrest
            refine ⟨max n1 n2 + 1, h3, ?_⟩
            unfold replaceScan
            simp only [hi, if_neg hd]
            rw [replaceScan_mono o root leaf n1 (max n1 n2) _ _ _ _ _ (by omega) s1]
            exact replaceScan_mono o root leaf n2 (max n1 n2) _ _ _ _ _ (by omega) s2

end

end OM
