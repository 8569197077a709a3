import Verif.Props.C01_C03
import Verif.Props.C02
import Verif.Props.C04_C11
import Verif.Props.C05_C07
import Verif.Props.C06
import Verif.Props.C08
import Verif.Props.C09_C10
import Verif.Props.C100
import Verif.Props.C101
import Verif.Props.C102
import Verif.Props.C103
import Verif.Props.C104
import Verif.Props.C105
import Verif.Props.C106
import Verif.Props.C107
import Verif.Props.C108
import Verif.Props.C109
import Verif.Props.C110
import Verif.Props.C111
import Verif.Props.C112
import Verif.Props.C112_hllc
import Verif.Props.C113
import Verif.Props.C114
import Verif.Props.C115
import Verif.Props.C116
import Verif.Props.C117
import Verif.Props.C118
import Verif.Props.C119
import Verif.Props.C11_limited
import Verif.Props.C120
import Verif.Props.C121
import Verif.Props.C122
import Verif.Props.C123
import Verif.Props.C124
import Verif.Props.C12_C57
import Verif.Props.C13_C18
import Verif.Props.C13_solver
import Verif.Props.C19_C22
import Verif.Props.C19_sizes
import Verif.Props.C23
import Verif.Props.C24_C27
import Verif.Props.C28_C30
import Verif.Props.C31
import Verif.Props.C32_C34
import Verif.Props.C35_C37
import Verif.Props.C38
import Verif.Props.C39_C40
import Verif.Props.C41_C44
import Verif.Props.C45
import Verif.Props.C46
import Verif.Props.C47_C48
import Verif.Props.C49
import Verif.Props.C52_C54
import Verif.Props.C53
import Verif.Props.C55
import Verif.Props.C56
import Verif.Props.C58_C62
import Verif.Props.C60
import Verif.Props.C61
import Verif.Props.C63
import Verif.Props.C64
import Verif.Props.C65
import Verif.Props.C66
import Verif.Props.C67
import Verif.Props.C68
import Verif.Props.C69
import Verif.Props.C70
import Verif.Props.C71
import Verif.Props.C72
import Verif.Props.C73
import Verif.Props.C74
import Verif.Props.C75
import Verif.Props.C76
import Verif.Props.C77
import Verif.Props.C78
import Verif.Props.C79
import Verif.Props.C80
import Verif.Props.C81
import Verif.Props.C82
import Verif.Props.C82_dims
import Verif.Props.C83
import Verif.Props.C84
import Verif.Props.C85
import Verif.Props.C86
import Verif.Props.C87
import Verif.Props.C88
import Verif.Props.C89
import Verif.Props.C90
import Verif.Props.C91
import Verif.Props.C92
import Verif.Props.C92_spec
import Verif.Props.C93
import Verif.Props.C94
import Verif.Props.C95
import Verif.Props.C96
import Verif.Props.C98
import Verif.Props.C98_link
import Verif.Props.C99
