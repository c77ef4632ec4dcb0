import Verif.Props.Poly
import Verif.Props.Ito
import Verif.Props.Utils
import Verif.Props.Cpp
import Verif.Props.Fsv1
import Verif.Props.Fsv1j
import Verif.Props.Fsv1c
import Verif.Props.Euler
import Verif.Props.ItoCond
import Verif.Props.Svvj
import Verif.Props.Svij
import Verif.Props.Svcj2
import Verif.Props.Srjd
import Verif.Props.Srjd2
import Verif.Props.Srjd3
import Verif.Props.Srjd4
import Verif.Props.Srjd5
import Verif.Props.Itos
import Verif.Props.Fsv2
import Verif.Props.Fsv2j
import Verif.Props.Ieziziz
import Verif.Props.SvcjI
import Verif.Props.Writer
import Verif.Props.FsvSde
import Verif.Props.FsvjSde
import Verif.Props.Fsv2Sde
import Verif.Props.Fsv2jSde
import Verif.Props.Subpolys
import Verif.Props.CondSde
import Verif.Props.ItoSde
import Verif.Props.ItosSde
import Verif.Props.Law
import Verif.Props.Law2
import Verif.Props.Law3
import Verif.Props.Agg
import Verif.Props.Nest
import Verif.Props.Tower
import Verif.Props.Units
import Verif.Props.Conv
import Verif.Props.Drift
import Verif.Props.Swap
import Verif.Props.Short
import Verif.Props.Central
import Verif.Fidelity
import Verif.Props.Long
import Verif.Props.Flat2
import Verif.Props.EulerConv
import Verif.Props.EulerConv2
import Verif.Props.EulerJump
import Verif.Props.SrjdExact
import Verif.Props.JumpAvg
import Verif.Props.Closed
import Verif.Props.LawAt
import Verif.Props.ClosedAt
import Verif.Props.Cumulant
import Verif.Props.CumulantAt
import Verif.Props.CumulantOf
import Verif.Audit
