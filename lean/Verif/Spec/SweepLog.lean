import Verif.Model.Sweep

/-! # Specification: recording which local updates a sweep attempts -/

namespace QLPeps.Sweep

variable {S : Type*}

/-- run the contractor call and leave the log alone -/
def logOps {Lg : Type*} (o : EnvOps S) : EnvOps (S × Lg) where
  generateBMPSApproach p x := (o.generateBMPSApproach p x.1, x.2)
  initBTen p i x := (o.initBTen p i x.1, x.2)
  growFullBTen p i r x := (o.growFullBTen p i r x.1, x.2)
  shiftBTenWindow p x := (o.shiftBTenWindow p x.1, x.2)
  shiftBMPSWindow p x := (o.shiftBMPSWindow p x.1, x.2)
  deleteInnerBMPS p x := (o.deleteInnerBMPS p x.1, x.2)

/-- run the update and append the attempted bond with its outcome to the log -/
def logUpd (upd : Site → Site → Orient → S → S × Bool) (a b : Site) (d : Orient)
    (x : S × List ((Site × Site) × Bool)) : (S × List ((Site × Site) × Bool)) × Bool :=
  let r := upd a b d x.1
  ((r.1, x.2 ++ [((a, b), r.2)]), r.2)

end QLPeps.Sweep
