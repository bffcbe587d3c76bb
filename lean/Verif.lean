import Verif.Props.Combinat
import Verif.Props.Cell
import Verif.Props.TensorCell
import Verif.Props.Geometry
import Verif.Props.Affine
import Verif.Props.PolyDim
import Verif.Props.Dofs
import Verif.Props.Lagrange
import Verif.Props.Discontinuous
import Verif.Props.Functional
import Verif.Props.PolySet
import Verif.Props.Ciarlet
import Verif.Props.FunctionalClasses
import Verif.Props.OnCoeffs
import Verif.Props.PointwiseDual
import Verif.Props.Jacobi
import Verif.Props.Orthopoly
import Verif.Props.CellEq
import Verif.Props.Variant
import Verif.Props.Support
import Verif.Props.Combine
import Verif.Props.TensorElement
import Verif.Props.Restricted
import Verif.Props.Gauss
import Verif.Lemmas.SimplexInt
import Verif.Lemmas.Collapse
import Verif.Lemmas.SimplexMap
import Verif.Props.Quadrature
import Verif.Model.QuadratureSchemes
import Verif.Lemmas.Dirichlet
import Verif.Props.QuadTables
import Verif.Props.CreateQuadrature
import Verif.Model.Expansions
import Verif.Lemmas.Expansions
import Verif.Lemmas.ExpLoops
import Verif.Lemmas.ExpBasis
import Verif.Lemmas.ExpPull
import Verif.Props.Expansions
import Verif.Model.ONSet
import Verif.Props.EndToEnd
import Verif.Model.Barycentric
import Verif.Props.Barycentric
import Verif.Lemmas.Legendre
import Verif.Model.Radau
import Verif.Props.Radau
import Verif.Model.Bernstein
import Verif.Lemmas.Bernstein
import Verif.Props.Bernstein
import Verif.Lemmas.PosInt
import Verif.Lemmas.RTCore
import Verif.Model.HdivCurl
import Verif.Props.HdivCurl
import Verif.Model.Blocks
import Verif.Lemmas.Blocks
import Verif.Model.HDivTrace
import Verif.Props.HDivTrace
import Verif.Model.Serendipity
import Verif.Lemmas.Serendipity
import Verif.Props.Serendipity
import Verif.Props.SerendipityPoints
import Verif.Props.SerendipityTab
import Verif.Model.VectorElements
import Verif.Lemmas.Union
import Verif.Lemmas.VecSpan
import Verif.Lemmas.VecModel
import Verif.Props.RTSpace
import Verif.Lemmas.Layout
import Verif.Lemmas.Facets
import Verif.Lemmas.VecElement
import Verif.Lemmas.FacetTrace
import Verif.Lemmas.RTDual
import Verif.Props.RTElement
import Verif.Lemmas.SVD
import Verif.Props.RTExample
import Verif.Lemmas.NedCore
import Verif.Lemmas.CurlCore
import Verif.Lemmas.CurlZero
import Verif.Model.Nedelec
import Verif.Lemmas.NedSpan
import Verif.Props.NedelecSpace
import Verif.Lemmas.TangPull
import Verif.Lemmas.CurlBlocks
import Verif.Lemmas.CurlFaces
import Verif.Props.HCurlDofs
import Verif.Props.NedelecElement
import Verif.Props.NedelecExample
import Verif.Model.SecondKind
import Verif.Lemmas.FieldMoments
import Verif.Props.BDMElement
import Verif.Lemmas.SecondFaces
import Verif.Props.Nedelec2Element
import Verif.Props.SecondKindExample
import Verif.Model.Lobatto
import Verif.Lemmas.GolubWelsch
import Verif.Lemmas.GolubQuad
import Verif.Props.Lobatto
import Verif.Props.PointElement
import Verif.Model.GaussElements
import Verif.Props.GaussElements
import Verif.Model.ScalarElements
import Verif.Lemmas.LineRestrict
import Verif.Lemmas.AnyElement
import Verif.Lemmas.EntityLoop
import Verif.Lemmas.LinPrime
import Verif.Lemmas.Jets
import Verif.Lemmas.EntityBubble
import Verif.Props.ScalarSpec
import Verif.Lemmas.ScalarBlocks
import Verif.Lemmas.Hermite
import Verif.Props.Hermite
import Verif.Lemmas.TriangleC1
import Verif.Lemmas.TriangleDual
import Verif.Props.Argyris
import Verif.Lemmas.AffinePoly
import Verif.Props.Morley
import Verif.Props.CrouzeixRaviart
import Verif.Lemmas.Bell
import Verif.Props.Bell
import Verif.Props.Taylor
import Verif.Model.SymTensor
import Verif.Lemmas.EntityQuot
import Verif.Lemmas.SymTensor
import Verif.Lemmas.FieldBlocks
import Verif.Props.Regge
import Verif.Props.HellanHerrmannJohnson
import Verif.Model.Bubble
import Verif.Model.DiscRT
import Verif.Lemmas.RestrictedElement
import Verif.Lemmas.LagrangeCore
import Verif.Props.Bubble
import Verif.Props.DiscRT
import Verif.Model.BDFM
import Verif.Lemmas.BDFM
import Verif.Props.BDFM
import Verif.Props.BDFMExample
import Verif.Model.LegendreMoments
import Verif.Lemmas.EdgeMoments
import Verif.Lemmas.MardalTaiWinther
import Verif.Lemmas.Cubic
import Verif.Lemmas.MTWZero
import Verif.Lemmas.ConstrainedBasis
import Verif.Props.MardalTaiWinther
import Verif.Model.ArnoldWinther
import Verif.Lemmas.TriIntegral
import Verif.Lemmas.AWZero
import Verif.Lemmas.ArnoldWinther
import Verif.Lemmas.AWEdges
import Verif.Props.ArnoldWinther
import Verif.Model.DPC
import Verif.Props.DPC
import Verif.Model.NodalEnriched
import Verif.Lemmas.NodalEnriched
import Verif.Lemmas.NodalParts
import Verif.Props.NodalEnriched
import Verif.Props.MiniElement
import Verif.Model.KMV
import Verif.Lemmas.KMVSpace
import Verif.Lemmas.KMVCert
import Verif.Lemmas.KMVCore
import Verif.Lemmas.KMVSep
import Verif.Lemmas.KMVTraces
import Verif.Lemmas.KMVPoints
import Verif.Props.KMV
import Verif.Model.Normals
import Verif.Lemmas.LinAlgSpec
import Verif.Lemmas.Normals
import Verif.Lemmas.Volumes
import Verif.Lemmas.NormalsScale
import Verif.Props.Normals
import Verif.Model.TensorNormals
import Verif.Props.TensorNormals
import Verif.Props.TensorNormalsCells
import Verif.Props.MeshSpec
import Verif.Props.ConformDiv
import Verif.Props.ConformUfc
import Verif.Props.ConformCurl
import Verif.Props.ConformCurl2
import Verif.Props.ConformC0
import Verif.Props.ConformExample
import Verif.Model.EntityTabulate
import Verif.Props.EntityTabulate
import Verif.Props.EntityTables
import Verif.Props.EntityOther
import Verif.Model.Newton
import Verif.Lemmas.LegendreTrig
import Verif.Props.Newton
import Verif.Props.NewtonMono
import Verif.Props.NewtonExample
import Verif.Props.ConformRegge
import Verif.Props.ConformHHJ
import Verif.Props.DeRham
import Verif.Props.TetSvdExample
import Verif.Props.DeRhamExample
import Verif.Props.JacLog
import Verif.Props.NodalReject
import Verif.Props.Commute
import Verif.Props.CommuteCurl
import Verif.Props.CommuteGrad
import Verif.Props.CommuteExample
import Verif.Props.LagrangeC0
import Verif.Props.QLagrange
import Verif.Props.QExample
import Verif.Model.Rtc
import Verif.Lemmas.RtcAux
import Verif.Props.RtcProduct
import Verif.Props.RtcLine
import Verif.Props.RtcTab
import Verif.Props.RtcDofs
import Verif.Props.RtcSpec
import Verif.Props.RtcCore
import Verif.Props.RtcFlat
import Verif.Props.Rtc
import Verif.Props.RtcElement
import Verif.Props.RtcMesh
import Verif.Props.RtcConform
import Verif.Model.QuadPoints
import Verif.Props.QuadPoints
import Verif.Props.MoreExamples
import Verif.Props.ConformCR
import Verif.Model.EnrichInit
import Verif.Props.EnrichInit
import Verif.Props.ConformBernstein
import Verif.Props.Instances
import Verif.Props.ConformTrace
import Verif.Lemmas.SerMatch
import Verif.Props.SerendipityMesh
import Verif.Props.ConformBDFM
import Verif.Props.KMVMesh
import Verif.Lemmas.Transport
import Verif.Props.Pushforward
import Verif.Lemmas.PiolaTransport
import Verif.Props.PushforwardVector
import Verif.Props.PushforwardExample
import Verif.Props.PushforwardInterior
import Verif.Props.PushforwardSecond
import Verif.Lemmas.MatrixTransport
import Verif.Props.PushforwardMatrix
import Verif.Props.PushforwardMatrixExample
import Verif.Props.PushforwardScalar
import Verif.Props.PushforwardSpaces
import Verif.Props.PushforwardSpacesExample
import Verif.Props.PushforwardLine
