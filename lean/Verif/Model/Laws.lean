import Verif.Model.Data

/-! The order of products. -/

namespace Idx

/-- `impl Ord for Product` (src/data/product.rs:72-77), with `PartialOrd` (66-70): by number. -/
def Product.cmp (a b : Product) : Ordering := compare a.sid b.sid

end Idx
