/-!
# Specification: is anything shown?
-/
namespace Pigro
variable {W : Type}

/-- Is the cursor visible in some iteration (`none`) of the loop? Up to the first such iteration only the steps in between change the world. -/
def shown (hidden : W → Bool) : W → List (Option (W → W)) → Bool
  | _, [] => false
  | w, some f :: l => shown hidden (f w) l
  | w, none :: l => !hidden w || shown hidden w l

end Pigro
