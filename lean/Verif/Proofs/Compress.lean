import Verif.Proofs.Bincode
import Verif.Spec.Storage
/-! The compressed container. -/
namespace Verif.Model
namespace Codec

theorem good_algorithm : algorithm.Good fun _ => True :=
  good_u32Nat.via fun a _ => by cases a <;> exact ⟨by decide, rfl⟩

theorem good_compressedData : compressedData.Good fun c => c.data.length < 2 ^ 64 :=
  (good_algorithm.pair good_u8.vec).via fun _ h => ⟨⟨trivial, h, by simp⟩, rfl⟩

end Codec
end Verif.Model
