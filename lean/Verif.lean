import Verif.Props.Store
import Verif.Props.AD
import Verif.Props.AD2
import Verif.Props.Num
import Verif.Props.IO
import Verif.Props.Stack
import Verif.Props.Rev
import Verif.Props.Session
import Verif.Props.Ext
import Verif.Props.Sparse
import Verif.Props.SparseIdx
import Verif.Props.SparseHess
import Verif.Props.HO
import Verif.Props.HORev
import Verif.Props.Drivers
import Verif.Props.Ode
import Verif.Props.Traceless
import Verif.AD.Counts
import Verif.Props.Counts
import Verif.AD.HigherVec
import Verif.AD.HovHos
import Verif.AD.HovRun
import Verif.Props.HOVec
import Verif.AD.HoRevVec
import Verif.AD.HvrRows
import Verif.AD.HvrSim
import Verif.AD.HvrStep
import Verif.AD.HvrCase
import Verif.AD.HvrRun
import Verif.Props.HORevVec
import Verif.Num.Simplex
import Verif.Num.Mixed
import Verif.Num.TensorCoef
import Verif.Num.TensorEnum
import Verif.Num.TensorTable
import Verif.Num.TensorIt
import Verif.Num.TensorSum
import Verif.Drivers.TensorEval
import Verif.Drivers.TensorRun
import Verif.Props.Tensor
import Verif.Num.LU
import Verif.Drivers.JacSolv
import Verif.Props.JacSolv
import Verif.AD.Api
import Verif.AD.ApiSpec
import Verif.AD.ApiProg
import Verif.AD.ApiReal
import Verif.Props.Api
import Verif.Drivers.Interfaces
import Verif.Props.Interfaces
import Verif.Sparse.RevBits
import Verif.Sparse.RevCov
import Verif.Sparse.RevTight
import Verif.Sparse.RevDriver
import Verif.Sparse.FwdTight
import Verif.Sparse.FwdTightDriver
import Verif.Props.SparseRev
import Verif.Props.SparseFwdTight
import Verif.AD.AbsNormal
import Verif.AD.AbsPair
import Verif.AD.AbsProg
import Verif.AD.AbsLin
import Verif.AD.AbsMain
import Verif.Props.AbsNormal
import Verif.Drivers.Lie
import Verif.Drivers.LieMath
import Verif.Props.Lie
import Verif.Drivers.FixPoint
import Verif.Props.FixPoint
import Verif.AD.Advector
import Verif.AD.AdvRec
import Verif.AD.AdvGhost
import Verif.AD.AdvMic
import Verif.AD.AdvSim
import Verif.AD.AdvStep
import Verif.AD.AdvProg
import Verif.AD.AdvMain
import Verif.AD.AdvDeriv
import Verif.AD.AdvVec
import Verif.AD.AdvValues
import Verif.Props.Advector
import Verif.Traceless.Indo
import Verif.Traceless.IndoProofs
import Verif.Traceless.IndoDep
import Verif.Sparse.Recover
import Verif.Traceless.IndoDriver
import Verif.Props.TracelessSparse
import Verif.AD.FovRc
import Verif.Sparse.SparseJac
import Verif.Props.SparseJac
import Verif.AD.HovRc
import Verif.Sparse.SparseHess
import Verif.Props.SparseHessDrv
import Verif.Traceless.Hov
import Verif.Traceless.HovSpec
import Verif.Traceless.HovOps
import Verif.Traceless.HovRun
import Verif.Props.TracelessHov
import Verif.Sparse.HessOld
import Verif.Sparse.HessAbs
import Verif.Sparse.HessOldRun
import Verif.Props.SparseHessOld
import Verif.AD.HoRevLin
import Verif.Drivers.InvMath
import Verif.Drivers.InvTaylor
import Verif.Props.InvTaylor
import Verif.Drivers.InvTensor
import Verif.Props.InvTensor
import Verif.Drivers.Fortran
import Verif.Props.Fortran
import Verif.Drivers.Alloc
import Verif.Props.Alloc
import Verif.Sparse.SparseC
import Verif.Props.SparseC
import Verif.IO.Life
import Verif.Props.Life
import Verif.Session.Registry
import Verif.Props.Registry
import Verif.Session.Config
import Verif.Props.Config
import Verif.Sparse.SparseANF
import Verif.Sparse.AnfCov
import Verif.Sparse.AnfRecover
import Verif.Props.SparseANF
import Verif.AD.PlSig
import Verif.AD.PlSigCol
import Verif.AD.PlSigMain
import Verif.Props.PlSig
import Verif.AD.FovSig
import Verif.Props.FovSig
import Verif.AD.AbsFrom
import Verif.Drivers.AnfDense
import Verif.Props.AnfDense
import Verif.IO.Doc
import Verif.IO.DocSpec
import Verif.IO.DocProofs
import Verif.Props.Doc
import Verif.Ext.Buf
import Verif.Ext.BufProofs
import Verif.Props.ExtBuf
import Verif.Ext.Obj
import Verif.Ext.ObjProofs
import Verif.Props.ExtObj
import Verif.Props.BitProp
import Verif.Props.NoMinMax
