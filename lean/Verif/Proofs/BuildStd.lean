import Verif.Proofs.Type4
import Verif.Model.BlockSize
/-!
# The library's sorting does not matter when an index of type 4 is built
-/
namespace AC
variable (std std' : StdLib)

theorem BlkBuilder.close_std (b : BlkBuilder) (term : Nat) (s : BlkLocals) : b.close std term s = b.close std' term s := by
  unfold BlkBuilder.close
  rw [deduplicate_congr std std' fun _ => Iff.rfl]

theorem BlkBuilder.addAll_std (m : Nat) (lists : List (List Nat)) (term : Nat) (b : BlkBuilder) (s : BlkLocals) :
    BlkBuilder.addAll std m lists term b s = BlkBuilder.addAll std' m lists term b s := by
  induction lists generalizing term b s with
  | nil => rfl
  | cons l lists ih =>
      unfold BlkBuilder.addAll
      simp only [ih, BlkBuilder.close_std std std']

theorem BlkBuilder.mk_std (m univ : Nat) (lists : List (List Nat)) : BlkBuilder.mk' std m univ lists = BlkBuilder.mk' std' m univ lists := by
  unfold BlkBuilder.mk'
  rw [BlkBuilder.addAll_std std std']

theorem Index4.build_std (m : Nat) (F : Files) (mem : Nat → W) : Index4.build std m F mem = Index4.build std' m F mem := by
  unfold Index4.build
  rw [BlkBuilder.mk_std std std']

theorem Index4.buildC_std (c : Nat) (F : Files) (mem : Nat → W) : Index4.buildC std c F mem = Index4.buildC std' c F mem := by
  unfold Index4.buildC
  simp only [Index4.build_std std std']

end AC
