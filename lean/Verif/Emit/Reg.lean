/-
Lemmas for C72: the regions of accesses that have been looked up during the translation.
-/
import Verif.MemSplit.Lemmas

namespace Smack.Regions

open Smack.MemSplit (idx_known)

variable {info : Nat → NodeInfo} {bp : Bool}

/-- A region whose element type has been dropped if it is accessed by bytes. -/
def Settled (r : Region) : Prop := r.bytewise = true → r.type = none

theorem settled_merge (r A : Region) : Settled (r.merge bp A) := by
  intro h
  simp only [Region.merge] at h ⊢
  rw [if_pos]
  rw [h]; rfl

theorem merge_settled {r A : Region} (hr : Inv info r) (hA : Inv info A) (hc : Contains info bp r A) (hs : Settled r) :
    r.merge bp A = r := by
  have h := merge_same (bp := bp) hr hA hc
  have ht : (r.merge bp A).type = r.type := by
    by_cases hb : r.bytewise = true
    · rw [hs hb, settled_merge r A (by rw [h.byte]; exact hb)]
    · have hb' : (r.merge bp A).bytewise = false := by rw [h.byte]; simpa using hb
      have e : (r.merge bp A).type = if (r.merge bp A).bytewise || r.type != A.type then none else r.type := rfl
      rw [e, hb']
      rcases hc.ty with hn | hn
      · rw [hn]; split <;> rfl
      · rw [hn]; simp
  obtain ⟨h1, h2, h3, h4, h5, h6, h7, h8, h9⟩ := h
  generalize r.merge bp A = x at *
  cases x; cases r
  simp_all

/-- The region of an access that has been looked up again stays as it is. -/
theorem settle {i : Nat} {r : Region} : ∀ (s h : List Access), (∀ A ∈ h, A.Fits) → (∀ A ∈ h, 0 < A.length) → (∀ A ∈ s, A ∈ h) →
    (collect info bp h)[i]? = some r → Settled r → (collect info bp (h ++ s))[i]? = some r
  | [], h, _, _, _, hr, _ => by rw [List.append_nil]; exact hr
  | B :: s, h, hf, hl, hs, hr, hS => by
    have hB := hs B (.head _)
    have hm : ∀ C ∈ h ++ [B], C ∈ h := by
      intro C hC
      rcases List.mem_append.mp hC with hC | hC
      · exact hC
      · rw [List.mem_singleton.mp hC]; exact hB
    have := settle (i := i) (r := r) s (h ++ [B]) (fun C hC => hf C (hm C hC)) (fun C hC => hl C (hm C hC))
      (fun C hC => List.mem_append_left _ (hs C (.tail _ hC))) ?_ hS
    · rw [List.append_assoc] at this; exact this
    · obtain ⟨hw, hc⟩ := collect_spec info bp h hf
      obtain ⟨q, hq, hcq⟩ := hc B hB
      obtain ⟨j, hj⟩ := List.getElem?_of_mem hq
      have iB := region_inv info bp B (hf B hB)
      have hk := idx_known (bp := bp) _ _ iB (by rw [(region_range info bp B (hf B hB)).2]; exact hl B hB) hw j q hj hcq
      rw [collect_append]
      show (idx bp (collect info bp h) (B.region info bp)).1[i]? = _
      rw [hk]
      by_cases hij : j = i
      · subst hij
        rw [hr] at hj; cases hj
        rw [merge_settled (hw.inv _ hq) iB hcq hS]
        rw [List.getElem?_set_self (List.getElem?_eq_some_iff.mp hr).1]
      · rw [List.getElem?_set_ne hij]; exact hr

theorem contains_consistent {r : Region} {A : Access} (hc : Contains info bp r (A.region info bp)) (hs : Settled r) :
    (r.type = none ∨ r.type = some A.ty) ∧ (r.bytewise = true ↔ bp = true ∧ r.type = none) := by
  refine ⟨hc.ty, fun h => ⟨hc.bpb h, hs h⟩, fun ⟨h1, h2⟩ => hc.type h1 ?_⟩
  rw [h2]; simp [Access.region, initRegion]

/-- The region of an access is fixed once the access has been looked up again. -/
theorem fixed {h : List Access} (hf : ∀ A ∈ h, A.Fits) (hl : ∀ A ∈ h, 0 < A.length) {s : List Access} (hs : ∀ A ∈ s, A ∈ h)
    {A : Access} (hA : A ∈ s) : ∃ r, Contains info bp r (A.region info bp) ∧ Settled r ∧ ∀ s', (∀ A ∈ s', A ∈ h) →
      (collect info bp (h ++ s ++ s'))[lookup info bp (collect info bp (h ++ s ++ s')) A]? = some r := by
  obtain ⟨a, b, rfl⟩ := List.append_of_mem hA
  have hsub : ∀ (l : List Access), (∀ C ∈ l, C ∈ h) → ∀ C ∈ h ++ l, C ∈ h := by
    intro l hl C hC
    rcases List.mem_append.mp hC with h | h
    · exact h
    · exact hl C h
  have ha : ∀ C ∈ a, C ∈ h := fun C hC => hs C (List.mem_append_left _ hC)
  have hA' : A ∈ h := hs A hA
  obtain ⟨hw, hc⟩ := collect_spec info bp (h ++ a) (fun C hC => hf C (hsub a ha C hC))
  obtain ⟨q, hq, hcq⟩ := hc A (List.mem_append_left _ hA')
  obtain ⟨j, hj⟩ := List.getElem?_of_mem hq
  have iA := region_inv info bp A (hf A hA')
  have hlen : 0 < (A.region info bp).length := by rw [(region_range info bp A (hf A hA')).2]; exact hl A hA'
  have hk := idx_known (bp := bp) _ _ iA hlen hw j q hj hcq
  have hget : (collect info bp (h ++ a ++ [A]))[j]? = some (q.merge bp (A.region info bp)) := by
    rw [collect_append]
    show (idx bp (collect info bp (h ++ a)) (A.region info bp)).1[j]? = _
    rw [hk, List.getElem?_set_self (List.getElem?_eq_some_iff.mp hj).1]
  have hcm := contains_merge_left (bp := bp) (hw.inv _ hq) iA hcq
  refine ⟨_, hcm, settled_merge _ _, fun s' hs' => ?_⟩
  have hb : ∀ C ∈ b ++ s', C ∈ h := by
    intro C hC
    rcases List.mem_append.mp hC with hC | hC
    · exact hs C (List.mem_append_right _ (.tail _ hC))
    · exact hs' C hC
  have haA : ∀ C ∈ h ++ a ++ [A], C ∈ h := by
    rw [List.append_assoc]
    refine hsub _ fun C hC => ?_
    rcases List.mem_append.mp hC with hC | hC
    · exact ha C hC
    · rw [List.mem_singleton.mp hC]; exact hA'
  have := settle (b ++ s') (h ++ a ++ [A]) (fun C hC => hf C (haA C hC)) (fun C hC => hl C (haA C hC))
    (fun C hC => List.mem_append_left _ (List.mem_append_left _ (hb C hC))) hget (settled_merge _ _)
  have e : h ++ a ++ [A] ++ (b ++ s') = h ++ (a ++ A :: b) ++ s' := by simp
  rw [e] at this
  have hall : ∀ C ∈ h ++ (a ++ A :: b) ++ s', C.Fits := by
    rw [List.append_assoc]
    intro C hC
    refine hf C (hsub _ (fun D hD => ?_) C hC)
    rcases List.mem_append.mp hD with hD | hD
    · exact hs D hD
    · exact hs' D hD
  exact (lookup_spec info bp _ (collect_spec info bp _ hall).1 A (hf A hA') (hl A hA') _ (List.mem_of_getElem? this) hcm).1

end Smack.Regions
