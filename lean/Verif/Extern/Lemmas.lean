import Verif.Extern.Spec
/-!
# Lemmas for C99
-/
namespace Smack.Extern

open Spec

theorem le_foldr_max {l : List Nat} {x : Nat} (h : x ∈ l) : x ≤ l.foldr max 0 := by
  induction l with
  | nil => cases h
  | cons a l ih =>
    rw [List.foldr_cons]
    rcases List.mem_cons.mp h with rfl | h
    · exact Nat.le_max_left _ _
    · exact Nat.le_trans (ih h) (Nat.le_max_right _ _)

theorem lt_fresh {m : Module} {g : Fun} (h : g ∈ m.funs) : g.id < fresh m :=
  Nat.lt_succ_of_le (le_foldr_max (List.mem_map_of_mem h))

theorem nodup_inj {f : α → β} {l : List α} (h : (l.map f).Nodup) {x y : α} (hx : x ∈ l) (hy : y ∈ l) (e : f x = f y) : x = y := by
  induction l with
  | nil => cases hx
  | cons a l ih =>
    rw [List.map_cons, List.nodup_cons] at h
    rcases List.mem_cons.mp hx with hx' | hx'
    · rcases List.mem_cons.mp hy with hy' | hy'
      · rw [hx', hy']
      · exact absurd (List.mem_map.mpr ⟨y, hy', by rw [← e, hx']⟩) h.1
    · rcases List.mem_cons.mp hy with hy' | hy'
      · exact absurd (List.mem_map.mpr ⟨x, hx', by rw [e, hy']⟩) h.1
      · exact ih h.2 hx' hy'

/-- The new identities. -/
def swap (a c i : Nat) : Nat := if i = a then c else i

/-- What becomes of a function. -/
def moved (a c : Nat) (g : Fun) : Fun :=
  { g with id := swap a c g.id, linkage := if g.id = a then .external else g.linkage, body := g.body.map (List.map (replaceItem a c)) }

/-- The module after a step that changes the function `f`. -/
def closed (m : Module) (f : Fun) : Module :=
  { funs := m.funs.map (moved f.id (fresh m)), globals := m.globals.map (replaceItem f.id (fresh m)) }

theorem funs_closed (c : Nat) (f : Fun) (n : Str) (l : List Fun) (hc : ∀ g ∈ l, g.id ≠ c) (hac : f.id ≠ c) (hf : ∀ g ∈ l, g.id = f.id → g = f) :
    ((((insertBefore { id := c, name := n, linkage := .external, args := f.args, attrs := f.attrs, body := f.body } f.id l).map
      fun g => { g with body := g.body.map (List.map (replaceItem f.id c)) }).filter fun g => g.id ≠ f.id).map
        fun g => if g.id = c then { g with name := f.name } else g) = l.map (moved f.id c) := by
  induction l with
  | nil => rfl
  | cons g l ih =>
    have ih := ih (fun g h => hc g (List.mem_cons_of_mem _ h)) (fun g h => hf g (List.mem_cons_of_mem _ h))
    have hg := hc g (by simp)
    rw [List.map_cons, ← ih]
    by_cases h : g.id = f.id
    · have e := hf g (by simp) h
      subst e
      have hca : ¬ c = g.id := fun h' => hac h'.symm
      rw [insertBefore, if_pos rfl, List.map_cons, List.map_cons, List.filter_cons, if_pos (by simpa using hca), List.filter_cons, if_neg (by simp),
        List.map_cons, if_pos rfl]
      simp [moved, swap]
    · rw [insertBefore, if_neg h, List.map_cons, List.filter_cons, if_pos (by simpa using h), List.map_cons, if_neg hg]
      simp [moved, swap, h]

theorem step_closed {m : Module} (hw : WF m) {e : Str} {f : Fun} (hf : m.funs.find? (fun g => g.name = e) = some f) (hl : f.linkage ≠ .external) :
    step m e = (closed m f, true) := by
  have hm := List.mem_of_find?_eq_some hf
  have hn : f.name = e := by simpa using List.find?_some hf
  unfold step
  rw [hf]
  dsimp only
  rw [if_pos hl]
  unfold externalizeFunction closed removeFun setName replaceAllUses
  dsimp only
  congr 2
  rw [← hn]
  refine funs_closed (fresh m) f _ m.funs (fun g h => Nat.ne_of_lt (lt_fresh h)) (Nat.ne_of_lt (lt_fresh hm)) ?_
  intro g hg he
  exact nodup_inj hw.ids hg hm he

theorem swap_inj {a c i j : Nat} (hi : i ≠ c) (hj : j ≠ c) : swap a c i = swap a c j ↔ i = j := by
  unfold swap
  split <;> split <;> omega

theorem nameOf_closed (m : Module) (f : Fun) (i : Nat) (hi : i ≠ fresh m) : nameOf (closed m f) (swap f.id (fresh m) i) = nameOf m i := by
  unfold nameOf closed
  dsimp only
  have h : ∀ l : List Fun, (∀ g ∈ l, g.id ≠ fresh m) →
      ((l.map (moved f.id (fresh m))).find? fun g => g.id = swap f.id (fresh m) i).map Fun.name = (l.find? fun g => g.id = i).map Fun.name := by
    intro l hl
    induction l with
    | nil => rfl
    | cons g l ih =>
      rw [List.map_cons, List.find?_cons, List.find?_cons]
      have hd : decide ((moved f.id (fresh m) g).id = swap f.id (fresh m) i) = decide (g.id = i) :=
        decide_eq_decide.mpr (swap_inj (hl g (by simp)) hi)
      rw [hd]
      cases decide (g.id = i) with
      | true => rfl
      | false => exact ih fun g h => hl g (List.mem_cons_of_mem _ h)
  exact h m.funs fun g hg => Nat.ne_of_lt (lt_fresh hg)

theorem name_closed (m : Module) (f : Fun) {is : List Item} (h : Refs m is) :
    (is.map (replaceItem f.id (fresh m))).map (name (closed m f)) = is.map (name m) := by
  rw [List.map_map]
  refine List.map_congr_left fun x hx => ?_
  cases x with
  | code n => rfl
  | ref i =>
    obtain ⟨g, hg, e⟩ := h i hx
    show Named.to (nameOf (closed m f) (swap f.id (fresh m) i)) = _
    rw [nameOf_closed m f i (by rw [← e]; exact Nat.ne_of_lt (lt_fresh hg))]
    rfl

/-- One function made visible. -/
def expose (e : Str) (v : View) : View := if v.name = e then { v with linkage := .external } else v

theorem view_closed {m : Module} (hw : WF m) {f : Fun} (hf : f ∈ m.funs) :
    view (closed m f) = ((view m).1.map (expose f.name), (view m).2) := by
  unfold view
  refine Prod.ext ?_ (name_closed m f hw.globals)
  show (m.funs.map (moved f.id (fresh m))).map _ = (m.funs.map _).map _
  rw [List.map_map, List.map_map]
  refine List.map_congr_left fun g hg => ?_
  have hiff : g.id = f.id ↔ g.name = f.name :=
    ⟨fun h => by rw [nodup_inj hw.ids hg hf h], fun h => by rw [nodup_inj hw.names hg hf h]⟩
  have hb : ((g.body.map (List.map (replaceItem f.id (fresh m)))).map (List.map (name (closed m f)))) = g.body.map (List.map (name m)) := by
    cases h : g.body with
    | none => rfl
    | some b => exact congrArg some (name_closed m f (hw.bodies g hg b h))
  show viewFun (closed m f) (moved f.id (fresh m) g) = expose f.name (viewFun m g)
  unfold viewFun moved expose
  dsimp only
  rw [hb]
  by_cases h : g.id = f.id
  · rw [if_pos h, if_pos (hiff.mp h)]
  · rw [if_neg h, if_neg (fun h' => h (hiff.mpr h'))]

theorem refs_closed {m : Module} {f : Fun} {is : List Item} (h : Refs m is) : Refs (closed m f) (is.map (replaceItem f.id (fresh m))) := by
  intro i hi
  obtain ⟨x, hx, e⟩ := List.mem_map.mp hi
  cases x with
  | code n => cases e
  | ref j =>
    cases e
    obtain ⟨g, hg, rfl⟩ := h j hx
    exact ⟨moved f.id (fresh m) g, List.mem_map_of_mem hg, rfl⟩

theorem wf_closed {m : Module} (hw : WF m) (f : Fun) : WF (closed m f) := by
  refine ⟨?_, ?_, ?_, refs_closed hw.globals⟩
  · show ((m.funs.map (moved f.id (fresh m))).map Fun.id).Nodup
    rw [List.map_map]
    have hn := hw.ids
    have hl : ∀ g ∈ m.funs, g.id ≠ fresh m := fun g hg => Nat.ne_of_lt (lt_fresh hg)
    revert hn hl
    generalize m.funs = l
    intro hn hl
    induction l with
    | nil => exact List.nodup_nil
    | cons g l ih =>
      rw [List.map_cons, List.nodup_cons] at hn ⊢
      refine ⟨fun h => hn.1 ?_, ih hn.2 fun g h => hl g (List.mem_cons_of_mem _ h)⟩
      obtain ⟨g', hg', e⟩ := List.mem_map.mp h
      have e' : swap f.id (fresh m) g'.id = swap f.id (fresh m) g.id := e
      rw [swap_inj (hl g' (List.mem_cons_of_mem _ hg')) (hl g (by simp))] at e'
      exact List.mem_map.mpr ⟨g', hg', e'⟩
  · show ((m.funs.map (moved f.id (fresh m))).map Fun.name).Nodup
    rw [List.map_map]
    exact hw.names
  · intro g' hg' b hb
    obtain ⟨g, hg, rfl⟩ := List.mem_map.mp hg'
    cases h : g.body with
    | none => simp [moved, h] at hb
    | some b' =>
      have : b = b'.map (replaceItem f.id (fresh m)) := by simpa [moved, h] using hb.symm
      subst this
      exact refs_closed (hw.bodies g hg b' h)

end Smack.Extern
