import Verif.Proof.Forest

/-! # The order of the adjacency lists does not matter -/

namespace Tree
open Graph

theorem IsTree.perm {g h : Array (List Nat)} (hg : IsTree g) (hs : h.size = g.size) (hp : ∀ u, (adj h u).Perm (adj g u)) : IsTree h := by
  have hE : ∀ u v, E h u v ↔ E g u v := fun u v => (hp u).mem_iff
  have hEq : E h = E g := by funext u v; exact propext (hE u v)
  have hP : ∀ u v p, IsPath h u v p ↔ IsPath g u v p := fun u v p =>
    ⟨fun q => ⟨q.head, q.last, q.nodup, hEq ▸ q.chain⟩, fun q => ⟨q.head, q.last, q.nodup, hEq ▸ q.chain⟩⟩
  refine ⟨hs ▸ hg.pos, fun u v huv => hs ▸ hg.valid u v ((hE u v).1 huv), fun u => (hp u).nodup_iff.2 (hg.simple u), fun u hu => hg.irrefl u ((hE u u).1 hu),
    fun u v huv => (hE v u).2 (hg.symm u v ((hE u v).1 huv)), fun u v hu hv => ?_⟩
  obtain ⟨p, h1, h2⟩ := hg.path u v (hs ▸ hu) (hs ▸ hv)
  exact ⟨p, (hP u v p).2 h1, fun q hq => h2 q ((hP u v q).1 hq)⟩

end Tree
