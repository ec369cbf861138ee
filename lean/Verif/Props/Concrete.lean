import Verif.Props.Categoric
/- Concrete variables and groups used in the examples beside the theorems. -/

namespace EFG
namespace Ex

def A : Var := ⟨0, "A", 2⟩
def B : Var := ⟨1, "B", 2⟩
def C : Var := ⟨2, "C", 3⟩
def gA : Group := Group.single A
def gAB : Group := ⟨[A, B], [A, B]⟩
def gBA : Group := ⟨[B, A], [B, A]⟩
def gBC : Group := ⟨[B, C], [B, C]⟩

theorem gA_reach : GroupReach gA := .single _
theorem gAB_reach : GroupReach gAB := .soup (vars := [A, B]) (by decide)
theorem gBA_reach : GroupReach gBA := .soup (vars := [B, A]) (by decide)
theorem gBC_reach : GroupReach gBC := .soup (vars := [B, C]) (by decide)
theorem gA_wf : ∀ v ∈ gA.group, v.WF := by decide
theorem gAB_wf : ∀ v ∈ gAB.group, v.WF := by decide
theorem gBC_wf : ∀ v ∈ gBC.group, v.WF := by decide

end Ex
end EFG
