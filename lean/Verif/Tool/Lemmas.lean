import Verif.Tool.Spec
import Verif.Driver.Lemmas

/-!
# Reading the driver's command line piece by piece
-/
namespace Smack.Tool
open Smack.Run (Text Args World Word L)

/-- `x` is read on its own, whatever follows. -/
def Piece (nd : Bool) (x : List Text) (os : List (Opt × Text)) (pl : List Text) : Prop :=
  ∀ y, readWords nd (x ++ y) = (readWords nd y).map fun r => { opts := os ++ r.opts, plain := pl ++ r.plain }

theorem Piece.nil (nd : Bool) : Piece nd [] [] [] := by
  intro y
  cases h : readWords nd y <;> simp [h]

theorem Piece.append {nd : Bool} {x x' : List Text} {os os' : List (Opt × Text)} {pl pl' : List Text} (h : Piece nd x os pl) (h' : Piece nd x' os' pl') :
    Piece nd (x ++ x') (os ++ os') (pl ++ pl') := by
  intro y
  rw [List.append_assoc, h, h']
  cases readWords nd y <;> simp

theorem Piece.flag (nd : Bool) (s : Text) (o : Text) (p : Opt) (hs : dashes s = some o) (hne : o ≠ []) (hv : splitEq o = (o, none))
    (hl : (declared nd).lookup o = some (p, .flag)) : Piece nd [s] [(p, "1".toList)] [] := by
  intro y
  cases o with
  | nil => exact absurd rfl hne
  | cons c t =>
    show readWords nd (s :: y) = _
    rw [readWords]
    simp only [hs, hv, hl, flagValue]
    rfl

theorem Piece.value (nd : Bool) (s v : Text) (o : Text) (p : Opt) (k : Kind) (hs : dashes s = some o) (hne : o ≠ []) (hv : splitEq o = (o, none))
    (hl : (declared nd).lookup o = some (p, k)) (hk : k ≠ .flag) (ha : k.accepts v = true) : Piece nd [s, v] [(p, v)] [] := by
  intro y
  cases o with
  | nil => exact absurd rfl hne
  | cons c t =>
    show readWords nd (s :: v :: y) = _
    rw [readWords]
    simp only [hs, hv, hl]
    cases k with
    | flag => exact absurd rfl hk
    | text => simp only [ha]; rfl
    | many => simp only [ha]; rfl
    | oneOf cs => simp only [ha]; rfl

theorem Piece.equals (nd : Bool) (s v : Text) (o n : Text) (p : Opt) (k : Kind) (hs : dashes s = some o) (hne : o ≠ []) (hv : splitEq o = (n, some v))
    (hl : (declared nd).lookup n = some (p, k)) (hk : k ≠ .flag) (ha : k.accepts v = true) : Piece nd [s] [(p, v)] [] := by
  intro y
  cases o with
  | nil => exact absurd rfl hne
  | cons c t =>
    show readWords nd (s :: y) = _
    rw [readWords]
    simp only [hs, hv, hl]
    cases k with
    | flag => exact absurd rfl hk
    | text => simp only [ha]; rfl
    | many => simp only [ha]; rfl
    | oneOf cs => simp only [ha]; rfl

theorem Piece.word (nd : Bool) (s : Text) (h : s.head? ≠ some '-') : Piece nd [s] [] [s] := by
  intro y
  have hd : dashes s = none := by
    cases s with
    | nil => rfl
    | cons c t =>
      have hc : c ≠ '-' := fun e => h (by rw [e]; rfl)
      unfold dashes
      split
      · rename_i e; exact absurd (List.cons.inj e).1 hc
      · rename_i e; exact absurd (List.cons.inj e).1 hc
      · rename_i e; exact absurd (List.cons.inj e).1 hc
      · rfl
  show readWords nd (s :: y) = _
  rw [readWords]
  simp only [hd]
  rfl

/-- Occurrences in case of a condition. -/
def when (b : Bool) (os : List (Opt × Text)) : List (Opt × Text) := if b then os else []

theorem Piece.opt {nd : Bool} {b : Bool} {x : List Word} {os : List (Opt × Text)} (h : b = true → Piece nd (x.map wordText) os []) :
    Piece nd ((Run.opt b x).map wordText) (when b os) [] := by
  cases b with
  | false => exact Piece.nil nd
  | true => exact h rfl

theorem Piece.many (nd : Bool) (s : Text) (o : Text) (p : Opt) (hs : dashes s = some o) (hne : o ≠ []) (hv : splitEq o = (o, none))
    (hl : (declared nd).lookup o = some (p, .many)) : ∀ vs : List Text,
    Piece nd ((vs.flatMap fun v => [Word.lit s, .lit v]).map wordText) (vs.map fun v => (p, v)) []
  | [] => Piece.nil nd
  | v :: vs => (Piece.value nd s v o p .many hs hne hv hl (by decide) rfl).append (Piece.many nd s o p hs hne hv hl vs)

end Smack.Tool
