import Verif.JsonDb.Lemmas
/-!
# C100: the commands for a compilation database
-/
namespace Smack.JsonDb

open Spec

/-- The words after the first substitution. -/
def outW : List Str → List Str
  | [] => []
  | [w] => [w]
  | w :: o :: ws => if w = ['-', 'o'] then w :: bitcode o :: outW ws else w :: outW (o :: ws)

theorem suffix_split {w : Str} (h : ['.', 'o'] <:+ w) : ∃ p, w = p ++ ['.', 'o'] ∧ bitcode w = p ++ ['.', 'b', 'c'] := by
  obtain ⟨p, rfl⟩ := h
  refine ⟨p, rfl, ?_⟩
  unfold bitcode
  rw [if_pos ⟨p, rfl⟩]
  simp

theorem gap_join (ws : List Str) (h : ws ≠ []) (w : Str) : join (w :: ws) = w ++ ' ' :: join ws := by
  cases ws with
  | nil => exact absurd rfl h
  | cons a ws => rfl

/-- What follows a word. -/
def tailOf (ws : List Str) : Str := if ws = [] then [] else ' ' :: join ws

theorem join_cons (w : Str) (ws : List Str) : join (w :: ws) = w ++ tailOf ws := by
  unfold tailOf
  by_cases h : ws = []
  · subst h; simp [join]
  · rw [if_neg h, gap_join ws h]

theorem tail_gap (ws : List Str) : Gap (tailOf ws) := by
  unfold tailOf
  split
  · exact Or.inl rfl
  · exact Or.inr ⟨_, rfl⟩

theorem outS_tail {ws ws' : List Str} (h : outS (join ws) = join ws') (he : ws = [] ↔ ws' = []) : outS (tailOf ws) = tailOf ws' := by
  unfold tailOf
  by_cases e : ws = []
  · rw [if_pos e, if_pos (he.mp e)]; rfl
  · rw [if_neg e, if_neg fun h => e (he.mpr h), outS_blank, h]

theorem outW_nil (ws : List Str) : ws = [] ↔ outW ws = [] := by
  match ws with
  | [] => simp [outW]
  | [w] => simp [outW]
  | w :: o :: ws =>
    rw [outW]
    split <;> simp

theorem outS_output (o t : Str) (hb : ' ' ∉ o) (ho : OutputOk o) (hf : ¬ ['-', 'o'] <:+ o) (ht : Gap t) :
    outS (['-', 'o'] ++ ' ' :: (o ++ t)) = ['-', 'o'] ++ ' ' :: (bitcode o ++ outS t) := by
  by_cases hs : ['.', 'o'] <:+ o
  · obtain ⟨p, rfl, e⟩ := suffix_split hs
    have hp : ' ' ∉ p := fun h => hb (List.mem_append_left _ h)
    rw [e]
    have hm := objMatch_object p t hp ht
    have h2 := outS_match p t (p ++ '.' :: 'o' :: t) hm
    simp only [List.append_assoc, List.cons_append, List.nil_append] at h2 ⊢
    exact h2
  · have hn := ho.resolve_left hs
    have hbc : bitcode o = o := by unfold bitcode; rw [if_neg hs]
    have hm := objMatch_other o t hn ht
    have h1 : outHere ('-' :: 'o' :: ' ' :: (o ++ t)) = none := hm
    show outS ('-' :: 'o' :: ' ' :: (o ++ t)) = _
    rw [outS_none _ _ h1, outS_none 'o' _ rfl, outS_blank, outS_word o t hb hf ht, hbc]
    rfl

theorem outS_join (ws : List Str) (h : CommandOk ws) : outS (join ws) = join (outW ws) := by
  match ws with
  | [] => rfl
  | [w] =>
    obtain ⟨h1, h2, h3⟩ := h
    have := outS_word w [] h1.2 (fun e => h3 (h2.1 e)) (Or.inl rfl)
    simpa [join, outW, outS, outSub] using this
  | w :: o :: ws =>
    obtain ⟨h1, h2, h3⟩ := h
    by_cases hw : w = ['-', 'o']
    · rw [if_pos hw] at h3
      obtain ⟨a1, a2, a3, a4, a5, a6⟩ := h3
      have ih := outS_join ws a6
      rw [outW, if_pos hw, gap_join _ (by simp), join_cons o, gap_join _ (by simp), join_cons (bitcode o), ← outS_tail ih (outW_nil ws), hw]
      exact outS_output o _ a1.2 a5 (fun e => a3 (a2.1 e)) (tail_gap ws)
    · rw [if_neg hw] at h3
      have ih := outS_join (o :: ws) h3
      rw [outW, if_neg hw, join_cons w, join_cons w, ← outS_tail ih (outW_nil _)]
      exact outS_word w _ h1.2 (fun e => hw (h2.1 e)) (tail_gap _)

theorem optS_blank (t : Str) : optS (' ' :: t) = ' ' :: optS t := optS_other _ _ fun d r _ e => by simp at e

theorem optS_bitcode (o t : Str) (hf : FlagOk o) (hl : level o = o) (ht : Gap t) : optS (bitcode o ++ t) = bitcode o ++ optS t := by
  by_cases hs : ['.', 'o'] <:+ o
  · have hnl : NoLevel o := fun d hd hi => by
      rcases level_eq o with ⟨d', hd', e, e'⟩ | ⟨h, _⟩
      · rw [e] at hs
        obtain ⟨p, hp⟩ := hs
        have := congrArg List.getLast? hp
        simp at this
        rw [← this] at hd'
        exact absurd hd' (by decide)
      · exact h d hd (hf.2 d hd hi)
    obtain ⟨p, rfl, e⟩ := suffix_split hs
    have hp : NoLevel p := fun d hd hi => hnl d hd (hi.trans ⟨[], ['.', 'o'], by simp⟩)
    rw [e, List.append_assoc]
    show optS (p ++ '.' :: 'b' :: 'c' :: t) = _
    rw [optS_word p _ hp (Or.inr ⟨'.', _, rfl, Or.inr rfl⟩), optS_other _ _ (fun d r _ e => by simp at e), optS_other _ _ (fun d r _ e => by simp at e), optS_other _ _ (fun d r _ e => by simp at e)]
    simp
  · have hbc : bitcode o = o := by unfold bitcode; rw [if_neg hs]
    rw [hbc, optS_flag o t hf ht, hl]

theorem optS_tail {ws ws' : List Str} (h : optS (join ws) = join ws') (he : ws = [] ↔ ws' = []) : optS (tailOf ws) = tailOf ws' := by
  unfold tailOf
  by_cases e : ws = []
  · rw [if_pos e, if_pos (he.mp e)]; rfl
  · rw [if_neg e, if_neg fun h => e (he.mpr h), optS_blank, h]

theorem rewrite_nil (ws : List Str) : outW ws = [] ↔ rewrite ws = [] := by
  match ws with
  | [] => simp [outW, rewrite]
  | [w] => simp [outW, rewrite]
  | w :: o :: ws =>
    rw [outW, rewrite]
    split <;> simp

theorem optS_join (ws : List Str) (h : CommandOk ws) : optS (join (outW ws)) = join (rewrite ws) := by
  match ws with
  | [] => rfl
  | [w] =>
    obtain ⟨h1, h2, h3⟩ := h
    have := optS_flag w [] h2 (Or.inl rfl)
    simpa [join, outW, rewrite, optS, optSub] using this
  | w :: o :: ws =>
    obtain ⟨h1, h2, h3⟩ := h
    by_cases hw : w = ['-', 'o']
    · rw [if_pos hw] at h3
      obtain ⟨a1, a2, a3, a4, a5, a6⟩ := h3
      have ih := optS_join ws a6
      have hlw : level ['-', 'o'] = ['-', 'o'] := by
        rcases level_eq ['-', 'o'] with ⟨d, _, e, _⟩ | ⟨_, e⟩
        · simp at e
        · exact e
      rw [outW, if_pos hw, rewrite, if_pos hw, gap_join _ (by simp), join_cons (bitcode o), gap_join _ (by simp), join_cons (bitcode o),
        ← optS_tail ih (rewrite_nil ws)]
      have hfw : FlagOk ['-', 'o'] := hw ▸ h2
      rw [hw, optS_flag _ _ hfw (Or.inr ⟨_, rfl⟩), hlw, optS_blank, optS_bitcode o _ a2 a4 (tail_gap _)]
    · rw [if_neg hw] at h3
      have ih := optS_join (o :: ws) h3
      rw [outW, if_neg hw, rewrite, if_neg hw, join_cons w, join_cons (level w), ← optS_tail ih (rewrite_nil _)]
      exact optS_flag w _ h2 (tail_gap _)

theorem level_word {w : Str} (h : WordOk w) : WordOk (level w) := by
  rcases level_eq w with ⟨d, _, _, e⟩ | ⟨_, e⟩
  · rw [e]; exact ⟨by simp, by decide⟩
  · rw [e]; exact h

theorem bitcode_word {w : Str} (h : WordOk w) : WordOk (bitcode w) := by
  by_cases hs : ['.', 'o'] <:+ w
  · obtain ⟨p, rfl, e⟩ := suffix_split hs
    rw [e]
    refine ⟨by simp, fun hm => ?_⟩
    rcases List.mem_append.mp hm with hm | hm
    · exact h.2 (List.mem_append_left _ hm)
    · exact absurd hm (by decide)
  · unfold bitcode; rw [if_neg hs]; exact h

theorem rewrite_words (ws : List Str) (h : CommandOk ws) : ∀ w ∈ rewrite ws, WordOk w := by
  match ws with
  | [] => simp [rewrite]
  | [w] =>
    intro x hx
    rw [rewrite, List.mem_singleton] at hx
    subst hx
    exact level_word h.1
  | w :: o :: ws =>
    obtain ⟨h1, h2, h3⟩ := h
    intro x hx
    rw [rewrite] at hx
    by_cases hw : w = ['-', 'o']
    · rw [if_pos hw] at h3 hx
      rcases List.mem_cons.mp hx with rfl | hx
      · exact h1
      · rcases List.mem_cons.mp hx with rfl | hx
        · exact bitcode_word h3.1
        · exact rewrite_words ws h3.2.2.2.2.2 x hx
    · rw [if_neg hw] at h3 hx
      rcases List.mem_cons.mp hx with rfl | hx
      · exact level_word h1
      · exact rewrite_words (o :: ws) h3 x hx

theorem split_join (ws : List Str) (h : ∀ w ∈ ws, WordOk w) (hn : ws ≠ []) (e : Str) (he : WordOk e) : split (join ws ++ ' ' :: e) = ws ++ [e] := by
  induction ws with
  | nil => exact absurd rfl hn
  | cons w ws ih =>
    by_cases hw : ws = []
    · subst hw
      show split (w ++ ' ' :: e) = _
      rw [split_word w (h w (by simp)), split_last e he]
      rfl
    · rw [gap_join ws hw, List.append_assoc, List.cons_append, split_word w (h w (by simp)), ih (fun w hw => h w (List.mem_cons_of_mem _ hw)) hw]
      rfl

/-- The command that is run has the words of the command of the database: outputs that are object files become bitcode files,
optimization levels become 0, the other words stay, and `-emit-llvm` is added. -/
theorem c100_command (ws : List Str) (h : CommandOk ws) (hn : ws ≠ []) : compileWords (join ws) = rewrite ws ++ ["-emit-llvm".toList] := by
  have h1 := outS_join ws h
  have h2 := optS_join ws h
  have h3 : optSub (outSub (join ws).length (join ws)).length (outSub (join ws).length (join ws)) = join (rewrite ws) := by
    show optS (outS (join ws)) = _
    rw [h1, h2]
  unfold compileWords
  rw [h3]
  exact split_join _ (rewrite_words ws h) (fun e => hn ((outW_nil ws).mpr ((rewrite_nil ws).mpr e))) ['-', 'e', 'm', 'i', 't', '-', 'l', 'l', 'v', 'm']
    ⟨by simp, by decide⟩

/-- `cc -O2 -c a.c -o a.o`. -/
example : CommandOk [['c', 'c'], ['-', 'O', '2'], ['-', 'o'], ['a', '.', 'o'], ['a', '.', 'c']] := by
  have hw : ∀ w : Str, w ∈ [['c', 'c'], ['-', 'O', '2'], ['-', 'o'], ['a', '.', 'o'], ['a', '.', 'c']] → WordOk w := by
    intro w hw
    simp only [List.mem_cons, List.not_mem_nil, or_false] at hw
    rcases hw with rfl | rfl | rfl | rfl | rfl <;> exact ⟨by simp, by decide⟩
  have hf : ∀ w : Str, w ∈ [['c', 'c'], ['-', 'O', '2'], ['-', 'o'], ['a', '.', 'o'], ['a', '.', 'c']] → FlagOk w := by
    intro w hw
    simp only [List.mem_cons, List.not_mem_nil, or_false] at hw
    rcases hw with rfl | rfl | rfl | rfl | rfl <;> exact ⟨by decide, by decide⟩
  refine ⟨hw _ (by simp), hf _ (by simp), ?_⟩
  rw [if_neg (by decide)]
  refine ⟨hw _ (by simp), hf _ (by simp), ?_⟩
  rw [if_neg (by decide)]
  refine ⟨hw _ (by simp), hf _ (by simp), ?_⟩
  rw [if_pos rfl]
  refine ⟨hw _ (by simp), hf _ (by simp), by decide, ?_, Or.inl ⟨['a'], rfl⟩, hw _ (by simp), hf _ (by simp), by decide⟩
  rcases level_eq ['a', '.', 'o'] with ⟨d, _, e, _⟩ | ⟨_, e⟩
  · simp at e
  · exact e

example : compileWords "cc -O2 -o a.o a.c".toList = ["cc".toList, "-O0".toList, "-o".toList, "a.bc".toList, "a.c".toList, "-emit-llvm".toList] := by decide +kernel

theorem objToBc_eq (f : Str) : objToBc f = bitcode f := by
  induction f with
  | nil => rfl
  | cons c s ih =>
    rw [objToBc]
    by_cases h : c :: s = ['.', 'o']
    · rw [if_pos h, h]; decide
    · rw [if_neg h, ih]
      by_cases hs : ['.', 'o'] <:+ s
      · obtain ⟨p, rfl, e⟩ := suffix_split hs
        rw [e]
        unfold bitcode
        rw [if_pos ⟨c :: p, by simp⟩]
        simp
      · have hc : ¬ ['.', 'o'] <:+ c :: s := fun h' => by
          rcases List.suffix_cons_iff.mp h' with e | e
          · exact h e.symm
          · exact hs e
        unfold bitcode
        rw [if_neg hs, if_neg hc]

/-- The commands for the whole database: each compilation in its directory, each linking with the bitcode files of its objects and
then with the libraries. -/
theorem c100_commands (a : Args) (es : List Entry) :
    commands a es = es.flatMap fun e => match e with
      | .objects os => [⟨[a.linker, "-o".toList, a.bcFile] ++ os.map bitcode, none⟩, ⟨[a.linker, "-o".toList, a.linkedBcFile, a.bcFile] ++ a.libs, none⟩]
      | .command d c => [⟨compileWords c, some d⟩] := by
  induction es with
  | nil => rfl
  | cons e es ih =>
    cases e with
    | objects os =>
      have : os.map objToBc = os.map bitcode := List.map_congr_left fun f _ => objToBc_eq f
      rw [commands, ih, this]
      rfl
    | command d c => rw [commands, ih]; rfl

/-- The linker reads the file that the compiler writes: the word after `-o` in the compilation of an object. -/
theorem c100_linked (ws vs : List Str) (o : Str) (h : CommandOk (['-', 'o'] :: o :: vs)) (hw : ∀ w ∈ ws, WordOk w ∧ FlagOk w ∧ w ≠ ['-', 'o']) :
    ∃ l r, compileWords (join (ws ++ ['-', 'o'] :: o :: vs)) = l ++ [['-', 'o'], objToBc o] ++ r ∧ l.length = ws.length := by
  have hok : CommandOk (ws ++ ['-', 'o'] :: o :: vs) := by
    induction ws with
    | nil => exact h
    | cons w ws ih =>
      have ih := ih fun w hw' => hw w (List.mem_cons_of_mem _ hw')
      obtain ⟨a1, a2, a3⟩ := hw w (by simp)
      cases ws with
      | nil => exact ⟨a1, a2, by rw [if_neg a3]; exact ih⟩
      | cons b ws => exact ⟨a1, a2, by rw [if_neg a3]; exact ih⟩
  refine ⟨ws.map level, rewrite vs ++ ["-emit-llvm".toList], ?_, by simp⟩
  rw [c100_command _ hok (by simp), objToBc_eq]
  have hr : ∀ ws : List Str, (∀ w ∈ ws, w ≠ ['-', 'o']) → rewrite (ws ++ ['-', 'o'] :: o :: vs) = ws.map level ++ ['-', 'o'] :: bitcode o :: rewrite vs := by
    intro ws hws
    induction ws with
    | nil => simp [rewrite]
    | cons w ws ih =>
      have ih := ih fun w hw' => hws w (List.mem_cons_of_mem _ hw')
      have a3 := hws w (by simp)
      cases ws with
      | nil =>
        rw [List.nil_append] at ih
        rw [List.cons_append, List.nil_append, rewrite, if_neg a3, ih]
        rfl
      | cons b ws =>
        rw [List.cons_append] at ih
        rw [List.cons_append, List.cons_append, rewrite, if_neg a3, ih]
        rfl
  rw [hr ws fun w hw' => (hw w hw').2.2]
  simp

/-- Levels that are not digits stay: the program is optimized before it is translated. -/
theorem c100_size_fails : compileWords "cc -Os -c a.c -o a.o".toList =
    ["cc".toList, "-Os".toList, "-c".toList, "a.c".toList, "-o".toList, "a.bc".toList, "-emit-llvm".toList] := by decide +kernel

/-- With two blanks after `-o` the output keeps its name, although it is the same command; the linker looks for another file. -/
theorem c100_blanks_fails : compileWords "cc -c a.c -o  a.o".toList = ["cc".toList, "-c".toList, "a.c".toList, "-o".toList, "a.o".toList, "-emit-llvm".toList] ∧
    objToBc "a.o".toList = "a.bc".toList := by decide +kernel

/-- A quoted word with a blank is taken apart. -/
theorem c100_quotes_fails : compileWords "cc -D'A=1 2' -c a.c".toList =
    ["cc".toList, "-D'A=1".toList, "2'".toList, "-c".toList, "a.c".toList, "-emit-llvm".toList] := by decide +kernel

end Smack.JsonDb
