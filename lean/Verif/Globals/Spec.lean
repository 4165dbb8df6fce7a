/-
What a correct placement of globals is.
-/
import Verif.Globals.Model

namespace Smack.Globals

/-- The ranges `[a, a+n)` and `[b, b+m)` are at least `gap` apart. -/
def Apart (gap : Int) (a : Int) (n : Nat) (b : Int) (m : Nat) : Prop := a + n + gap ≤ b ∨ b + m + gap ≤ a

/-- The number of bytes the program may use at a global: the size of its type. -/
def bytes (g : Global) : Nat := if g.isVariable && g.sized then g.storeSize else 0

/-- The global has storage in this program. -/
def Defined (g : Global) : Prop := g.isVariable = true → g.hasInitializer = true

/-- The sizes do not exceed what the 32-bit computation can express. -/
def Small (g : Global) : Prop := bytes g + 1024 < 2 ^ 32 ∧ 0 < g.prefAlign ∧ g.prefAlign + 1024 < 2 ^ 32

end Smack.Globals
